import Verif.Proof.Write
import Verif.Proof.TypedTop
import Verif.Proof.RefParse

/-!
# The document written means the value; its depth; layout options do not matter
-/

namespace Verif

open Spec

variable {w : WCfg} {Δ : Env} {P T : Bytes → Prop}

/-! ## Depth -/

theorem gapElems_depth (n k : Nat) (es : JElems) : (gapElems w n k es).depth = es.depth := by
  induction k with
  | zero => rfl
  | succ k ih => simp [gapElems, JElems.depth, JVal.depth, ih]

mutual
theorem depth_count (d : JVal) : d.depth ≤ d.text.count 0x5B + d.text.count 0x7B := by
  match d with
  | .null | .tru | .fls | .num _ | .str _ => simp only [JVal.depth]; omega
  | .arr w es =>
    have := depthE_count es
    rw [arr_text1]
    simp only [JVal.depth, List.count_cons, List.count_append, beq_self_eq_true, if_true]
    cases es with
    | nil => simp only [JElems.depth]; omega
    | cons pre d post tl =>
      simp only [JElems.text1, JElems.text, List.count_append, List.count_cons] at this ⊢
      simp at this ⊢
      omega
  | .obj w es =>
    have := depthM_count es
    rw [obj_text1]
    simp only [JVal.depth, List.count_cons, List.count_append, beq_self_eq_true, if_true]
    cases es with
    | nil => simp only [JMems.depth]; omega
    | cons pre n pc qc d post tl =>
      simp only [JMems.text1, JMems.text, List.count_append, List.count_cons] at this ⊢
      simp at this ⊢
      omega
theorem depthE_count (d : JElems) : d.depth ≤ d.text.count 0x5B + d.text.count 0x7B := by
  match d with
  | .nil => simp [JElems.depth]
  | .cons pre d post tl =>
    have h1 := depth_count d
    have h2 := depthE_count tl
    simp only [JElems.depth, JElems.text, List.count_cons, List.count_append]
    omega
theorem depthM_count (d : JMems) : d.depth ≤ d.text.count 0x5B + d.text.count 0x7B := by
  match d with
  | .nil => simp [JMems.depth]
  | .cons pre n pc qc d post tl =>
    have h1 := depth_count d
    have h2 := depthM_count tl
    simp only [JMems.depth, JMems.text, List.count_cons, List.count_append]
    omega
end

theorem docOf_depth (s : Bytes) : (docOf s).depth ≤ s.count 0x5B + s.count 0x7B := by
  rcases docOf_cases s with ⟨-, h⟩ | h
  · have := depth_count (docOf s)
    rwa [h] at this
  · rw [h]
    simp [JVal.depth]

theorem layTxt_depth {seven : Bool} {k : TxtKind} {s : Bytes} {d : JVal} (hd : layTxt seven k s = .ok d) :
    d.depth ≤ s.count 0x5B + s.count 0x7B := by
  match k with
  | .date | .real .. => cases hd
  | .rawStr _ | .custom .any | .custom .str =>
    simp only [layTxt] at hd
    rw [Res.bind_eq_ok] at hd
    obtain ⟨x, hx, hd⟩ := hd
    cases hd
    simp [JVal.depth]
  | .custom .lit | .raw =>
    simp only [layTxt] at hd
    rw [Res.bind_eq_ok] at hd
    obtain ⟨x, hx, hd⟩ := hd
    cases hd
    rw [writeUnescaped_eq hx]
    exact docOf_depth s

theorem layLit_depth {al : Bool} {l : LitTy} {x : Lit} {d : JVal} (hd : layLit al l x = .ok d) : d.depth ≤ 0 := by
  unfold layLit at hd
  split at hd <;> split at hd <;> cases hd <;> (repeat' split) <;> simp [JVal.depth]

theorem layLit_ne_null {al : Bool} {l : LitTy} {x : Lit} {d : JVal} (hd : layLit al l x = .ok d) : d ≠ .null := by
  unfold layLit at hd
  split at hd <;> split at hd <;> cases hd <;> (repeat' split) <;> simp

mutual
theorem layVal_depth (n : Nat) (ty : Ty) (v : Val) {d : JVal} (hd : layVal w Δ n ty v = .ok d) : d.depth ≤ v.depth := by
  match v with
  | .bool b =>
    simp only [layVal, Res.ok.injEq] at hd
    subst hd
    cases b <;> simp [JVal.depth]
  | .int i =>
    cases ty <;> simp only [layVal, Res.ok.injEq, reduceCtorEq] at hd
    subst hd
    simp [JVal.depth]
  | .str s =>
    cases ty <;> simp only [layVal, reduceCtorEq] at hd
    rw [Res.bind_eq_ok] at hd
    obtain ⟨b, -, hd⟩ := hd
    cases hd
    simp [JVal.depth]
  | .txt s =>
    cases ty <;> simp only [layVal, reduceCtorEq] at hd
    exact layTxt_depth hd
  | .date x =>
    simp only [layVal] at hd
    split at hd
    · rw [Res.bind_eq_ok] at hd
      obtain ⟨c, -, hd⟩ := hd
      cases hd
      simp [JVal.depth]
    · cases hd
  | .real x =>
    simp only [layVal] at hd
    split at hd
    · rw [Res.bind_eq_ok] at hd
      obtain ⟨c, -, hd⟩ := hd
      cases hd
      simp [JVal.depth]
    · cases hd
  | .lit x =>
    simp only [layVal] at hd
    split at hd
    · exact layLit_depth hd
    · cases hd
  | .none =>
    simp only [layVal, Res.ok.injEq] at hd
    subst hd
    simp [JVal.depth]
  | .some v =>
    cases ty <;> simp only [layVal, reduceCtorEq] at hd
    rw [Val.depth]
    exact layVal_depth n _ v hd
  | .arr vs =>
    cases ty <;> simp only [layVal, reduceCtorEq] at hd
    rw [Res.bind_eq_ok] at hd
    obtain ⟨es, he, hd⟩ := hd
    cases hd
    have := layElems_depth _ _ vs he
    simp only [JVal.depth, Val.depth]; omega
  | .map kvs =>
    cases ty <;> simp only [layVal, reduceCtorEq] at hd
    rw [Res.bind_eq_ok] at hd
    obtain ⟨es, he, hd⟩ := hd
    cases hd
    have := layPairs_depth _ _ kvs he
    simp only [JVal.depth, Val.depth]; omega
  | .cls vs =>
    cases ty <;> simp only [layVal, reduceCtorEq] at hd
    rename_i i
    cases hi : Δ i with
    | obj ms ex =>
      simp only [hi] at hd
      rw [Res.bind_eq_ok] at hd
      obtain ⟨es, he, hd⟩ := hd
      cases hd
      have := layMembers_depth _ ms vs he
      simp only [JVal.depth, Val.depth]; omega
    | tup ts ex =>
      simp only [hi] at hd
      rw [Res.bind_eq_ok] at hd
      obtain ⟨es, he, hd⟩ := hd
      cases hd
      have := layTuple_depth _ ts vs he
      simp only [JVal.depth, Val.depth]; omega
    | ord ms ex =>
      simp only [hi] at hd
      rw [Res.bind_eq_ok] at hd
      obtain ⟨es, he, hd⟩ := hd
      cases hd
      have := layOrdered_depth _ _ ms vs he
      simp only [JVal.depth, Val.depth]; omega
    | var alts => simp only [hi, reduceCtorEq] at hd
    | ivar tag sw alts => simp only [hi, reduceCtorEq] at hd
  | .alt k v =>
    simp only [layVal] at hd
    cases hk : (altTys Δ ty)[k]? with
    | none => simp only [hk, reduceCtorEq] at hd
    | some ty' =>
      simp only [hk] at hd
      rw [Val.depth]
      exact layVal_depth n ty' v hd
theorem layElems_depth (n : Nat) (ty : Ty) (vs : List Val) {es : JElems} (hd : layElems w Δ n ty vs = .ok es) :
    es.depth ≤ depths vs := by
  match vs with
  | [] =>
    simp only [layElems, Res.ok.injEq] at hd
    subst hd
    simp [JElems.depth]
  | v :: vs =>
    simp only [layElems] at hd
    rw [Res.bind_eq_ok] at hd
    obtain ⟨d, h1, hd⟩ := hd
    rw [Res.bind_eq_ok] at hd
    obtain ⟨es', h2, hd⟩ := hd
    cases hd
    have := layVal_depth n ty v h1
    have := layElems_depth n ty vs h2
    simp only [JElems.depth, depths]; omega
theorem layPairs_depth (n : Nat) (ty : Ty) (kvs : List (Bytes × Val)) {es : JMems} (hd : layPairs w Δ n ty kvs = .ok es) :
    es.depth ≤ depthp kvs := by
  match kvs with
  | [] =>
    simp only [layPairs, Res.ok.injEq] at hd
    subst hd
    simp [JMems.depth]
  | (k, v) :: kvs =>
    simp only [layPairs] at hd
    rw [Res.bind_eq_ok] at hd
    obtain ⟨b, -, hd⟩ := hd
    rw [Res.bind_eq_ok] at hd
    obtain ⟨d, h1, hd⟩ := hd
    rw [Res.bind_eq_ok] at hd
    obtain ⟨es', h2, hd⟩ := hd
    cases hd
    have := layVal_depth n ty v h1
    have := layPairs_depth n ty kvs h2
    simp only [JMems.depth, depthp]; omega
theorem layMembers_depth (n : Nat) (ms : List Member) (vs : List Val) {es : JMems} (hd : layMembers w Δ n ms vs = .ok es) :
    es.depth ≤ depths vs := by
  match vs with
  | [] =>
    simp only [layMembers, Res.ok.injEq] at hd
    subst hd
    simp [JMems.depth]
  | v :: vs =>
    cases ms with
    | nil => simp [layMembers] at hd
    | cons m ms =>
      simp only [layMembers] at hd
      split at hd
      · have := layMembers_depth n ms vs hd
        simp only [depths]; omega
      · rw [Res.bind_eq_ok] at hd
        obtain ⟨d, h1, hd⟩ := hd
        rw [Res.bind_eq_ok] at hd
        obtain ⟨es', h2, hd⟩ := hd
        cases hd
        have := layVal_depth n _ v h1
        have := layMembers_depth n ms vs h2
        simp only [JMems.depth, depths]; omega
theorem layTuple_depth (n : Nat) (ts : List Ty) (vs : List Val) {es : JElems} (hd : layTuple w Δ n ts vs = .ok es) :
    es.depth ≤ depths vs := by
  match vs with
  | [] =>
    simp only [layTuple, Res.ok.injEq] at hd
    subst hd
    simp [JElems.depth]
  | v :: vs =>
    cases ts with
    | nil => simp [layTuple] at hd
    | cons ty ts =>
      simp only [layTuple] at hd
      rw [Res.bind_eq_ok] at hd
      obtain ⟨d, h1, hd⟩ := hd
      rw [Res.bind_eq_ok] at hd
      obtain ⟨es', h2, hd⟩ := hd
      cases hd
      have := layVal_depth n ty v h1
      have := layTuple_depth n ts vs h2
      simp only [JElems.depth, depths]; omega
theorem layOrdered_depth (n idx : Nat) (ms : List (Option Nat × Ty)) (vs : List Val) {es : JElems}
    (hd : layOrdered w Δ n idx ms vs = .ok es) : es.depth ≤ depths vs := by
  match vs with
  | [] =>
    simp only [layOrdered, Res.ok.injEq] at hd
    subst hd
    simp [JElems.depth]
  | v :: vs =>
    cases ms with
    | nil => simp [layOrdered] at hd
    | cons m ms =>
      simp only [layOrdered] at hd
      rw [Res.bind_eq_ok] at hd
      obtain ⟨d, h1, hd⟩ := hd
      rw [Res.bind_eq_ok] at hd
      obtain ⟨es', h2, hd⟩ := hd
      cases hd
      have := layVal_depth n _ v h1
      have := layOrdered_depth n (idx + 1) ms vs h2
      rw [gapElems_depth]
      simp only [JElems.depth, depths]; omega
end

/-! ## The layout does not depend on the format -/

theorem nextMember_filter (w : WCfg) (n : Nat) : (nextMember w n).filter (· = 0x2C) = [] := by
  rw [List.filter_eq_nil_iff]
  intro c hc
  rcases nextMember_ws w n c hc with h | h | h | h <;> simp [h]

theorem closing_filter (w : WCfg) (n : Nat) (e : Bool) :
    (closing w n e).filter (· = 0x2C) = if e then [] else trailing w := by
  unfold closing
  split
  · simp
  · rw [List.filter_append, nextMember_filter]
    unfold trailing
    split <;> simp

theorem gapElems_strip (n k : Nat) (es : JElems) :
    (gapElems w n k es).strip = gapElems {} 0 k es.strip := by
  induction k with
  | zero => rfl
  | succ k ih => simp [gapElems, JElems.strip, JVal.strip, ih, nextMember]

/-- Two sets of options that differ in the format only. -/
def SameButFormat (w w' : WCfg) : Prop :=
  w.tc = w'.tc ∧ w.only7bit = w'.only7bit ∧ w.errInvalid = w'.errInvalid

variable {w' : WCfg}

mutual
theorem layVal_strip (hw : SameButFormat w w') (n n' : Nat) (ty : Ty) (v : Val) :
    (layVal w Δ n ty v >>= fun d => .ok d.strip) = (layVal w' Δ n' ty v >>= fun d => .ok d.strip) := by
  match v with
  | .bool b => simp [layVal]
  | .int i => cases ty <;> simp [layVal]
  | .str s => cases ty <;> simp [layVal, hw.2.1, hw.2.2]
  | .txt s => cases ty <;> simp [layVal, hw.2.1]
  | .date x =>
    cases ty with
    | txt k => cases k <;> simp [layVal]
    | _ => simp [layVal]
  | .real x =>
    cases ty with
    | txt k => cases k <;> simp [layVal]
    | _ => simp [layVal]
  | .lit x =>
    cases ty with
    | txt k => cases k <;> simp [layVal]
    | _ => simp [layVal]
  | .none => simp [layVal]
  | .some v =>
    cases ty <;> simp only [layVal]
    exact layVal_strip hw n n' _ v
  | .arr vs =>
    cases ty <;> simp only [layVal]
    rename_i ty
    have := layElems_strip hw (n + 1) (n' + 1) ty vs
    cases h1 : layElems w Δ (n + 1) ty vs <;> cases h2 : layElems w' Δ (n' + 1) ty vs <;>
      simp_all [JVal.strip, closing_filter, trailing, hw.1]
  | .map kvs =>
    cases ty <;> simp only [layVal]
    rename_i ty
    have := layPairs_strip hw (n + 1) (n' + 1) ty kvs
    cases h1 : layPairs w Δ (n + 1) ty kvs <;> cases h2 : layPairs w' Δ (n' + 1) ty kvs <;>
      simp_all [JVal.strip, closing_filter, trailing, hw.1]
  | .cls vs =>
    cases ty <;> simp only [layVal]
    rename_i i
    cases hi : Δ i with
    | obj ms ex =>
      simp only
      have := layMembers_strip hw (n + 1) (n' + 1) ms vs
      cases h1 : layMembers w Δ (n + 1) ms vs <;> cases h2 : layMembers w' Δ (n' + 1) ms vs <;>
        simp_all [JVal.strip, closing_filter, trailing, hw.1]
    | tup ts ex =>
      simp only
      have := layTuple_strip hw (n + 1) (n' + 1) ts vs
      cases h1 : layTuple w Δ (n + 1) ts vs <;> cases h2 : layTuple w' Δ (n' + 1) ts vs <;>
        cases ts <;> simp_all [JVal.strip, closing_filter, nextMember_filter, trailing, hw.1]
    | ord ms ex =>
      simp only
      have := layOrdered_strip hw (n + 1) (n' + 1) 0 ms vs
      cases h1 : layOrdered w Δ (n + 1) 0 ms vs <;> cases h2 : layOrdered w' Δ (n' + 1) 0 ms vs <;>
        cases ms <;> simp_all [JVal.strip, closing_filter, nextMember_filter, trailing, hw.1]
    | var alts => rfl
    | ivar tag sw alts => rfl
  | .alt k v =>
    simp only [layVal]
    cases (altTys Δ ty)[k]? with
    | none => rfl
    | some ty' => exact layVal_strip hw n n' ty' v
theorem layElems_strip (hw : SameButFormat w w') (n n' : Nat) (ty : Ty) (vs : List Val) :
    (layElems w Δ n ty vs >>= fun d => .ok d.strip) = (layElems w' Δ n' ty vs >>= fun d => .ok d.strip) := by
  match vs with
  | [] => simp [layElems]
  | v :: vs =>
    have h1 := layVal_strip hw n n' ty v
    have h2 := layElems_strip hw n n' ty vs
    simp only [layElems]
    cases h3 : layVal w Δ n ty v <;> cases h4 : layVal w' Δ n' ty v <;>
      cases h5 : layElems w Δ n ty vs <;> cases h6 : layElems w' Δ n' ty vs <;> simp_all [JElems.strip]
theorem layPairs_strip (hw : SameButFormat w w') (n n' : Nat) (ty : Ty) (kvs : List (Bytes × Val)) :
    (layPairs w Δ n ty kvs >>= fun d => .ok d.strip) = (layPairs w' Δ n' ty kvs >>= fun d => .ok d.strip) := by
  match kvs with
  | [] => simp [layPairs]
  | (k, v) :: kvs =>
    have h1 := layVal_strip hw n n' ty v
    have h2 := layPairs_strip hw n n' ty kvs
    simp only [layPairs, hw.2.1, hw.2.2]
    cases writeStrBody (false || w'.only7bit) w'.errInvalid k <;>
    cases h3 : layVal w Δ n ty v <;> cases h4 : layVal w' Δ n' ty v <;>
      cases h5 : layPairs w Δ n ty kvs <;> cases h6 : layPairs w' Δ n' ty kvs <;> simp_all [JMems.strip]
theorem layMembers_strip (hw : SameButFormat w w') (n n' : Nat) (ms : List Member) (vs : List Val) :
    (layMembers w Δ n ms vs >>= fun d => .ok d.strip) = (layMembers w' Δ n' ms vs >>= fun d => .ok d.strip) := by
  match vs with
  | [] => simp [layMembers]
  | v :: vs =>
    cases ms with
    | nil => simp [layMembers]
    | cons m ms =>
      have h1 := layVal_strip hw n n' m.ty v
      have h2 := layMembers_strip hw n n' ms vs
      simp only [layMembers]
      split
      · exact h2
      · cases h3 : layVal w Δ n m.ty v <;> cases h4 : layVal w' Δ n' m.ty v <;>
          cases h5 : layMembers w Δ n ms vs <;> cases h6 : layMembers w' Δ n' ms vs <;> simp_all [JMems.strip]
theorem layTuple_strip (hw : SameButFormat w w') (n n' : Nat) (ts : List Ty) (vs : List Val) :
    (layTuple w Δ n ts vs >>= fun d => .ok d.strip) = (layTuple w' Δ n' ts vs >>= fun d => .ok d.strip) := by
  match vs with
  | [] => simp [layTuple]
  | v :: vs =>
    cases ts with
    | nil => simp [layTuple]
    | cons ty ts =>
      have h1 := layVal_strip hw n n' ty v
      have h2 := layTuple_strip hw n n' ts vs
      simp only [layTuple]
      cases h3 : layVal w Δ n ty v <;> cases h4 : layVal w' Δ n' ty v <;>
        cases h5 : layTuple w Δ n ts vs <;> cases h6 : layTuple w' Δ n' ts vs <;> simp_all [JElems.strip]
theorem layOrdered_strip (hw : SameButFormat w w') (n n' idx : Nat) (ms : List (Option Nat × Ty)) (vs : List Val) :
    (layOrdered w Δ n idx ms vs >>= fun d => .ok d.strip) = (layOrdered w' Δ n' idx ms vs >>= fun d => .ok d.strip) := by
  match vs with
  | [] => simp [layOrdered]
  | v :: vs =>
    cases ms with
    | nil => simp [layOrdered]
    | cons m ms =>
      obtain ⟨want, ty⟩ := m
      have h1 := layVal_strip hw n n' ty v
      have h2 := layOrdered_strip hw n n' (idx + 1) ms vs
      simp only [layOrdered]
      cases h3 : layVal w Δ n ty v <;> cases h4 : layVal w' Δ n' ty v <;>
        cases h5 : layOrdered w Δ n (idx + 1) ms vs <;> cases h6 : layOrdered w' Δ n' (idx + 1) ms vs <;>
        simp_all [JElems.strip, gapElems_strip]
end

/-! ## The document means the value -/

theorem docOf_strip {d : JVal} (h : d.WF) : (docOf d.text).strip = d.strip :=
  text_unique (docOf_of h).1 h (docOf_of h).2

theorem docOf_lit {s : Bytes} (h : HasTxt (.custom .lit) s) : (docOf s).IsLit := by
  obtain ⟨d, h1, h2, rfl⟩ := h
  have h3 := docOf_strip h1
  generalize docOf d.text = x at h3
  cases d <;> cases x <;> first | exact h2.elim | trivial

theorem docOf_raw {s : Bytes} (h : HasTxt .raw s) : docOf s ≠ .null ∧ ∀ b, docOf s ≠ .str b := by
  obtain ⟨d, h1, h2, h4, rfl⟩ := h
  have h3 := docOf_strip h1
  generalize docOf d.text = x at h3
  cases d <;> cases x <;> first | (exfalso; contradiction) | (exact absurd rfl (h4 _)) | simp

theorem layTxt_reads {seven : Bool} {k : TxtKind} {s : Bytes} {d : JVal} (h : HasTxt k s) (hd : layTxt seven k s = .ok d) :
    ReadsTxt k d (.txt s) := by
  rcases layTxt_cases h hd with ⟨rfl, ⟨ah, rfl⟩ | rfl⟩ | ⟨rfl, hk⟩
  · exact .rawStr
  · exact .customStr h.2
  · have ht := (docOf_hasTxt h hk).2
    rcases hk with rfl | rfl
    · have := ReadsTxt.customLit (c := .lit) (by simp) (docOf_lit h)
      rwa [ht] at this
    · have := ReadsTxt.raw (docOf_raw h).1 (docOf_raw h).2
      rwa [ht] at this

theorem layVal_ne_null (n : Nat) (ty : Ty) (v : Val) (h : HasTy Δ P T ty v) (hne : v ≠ .none) {d : JVal}
    (hd : layVal w Δ n ty v = .ok d) : d ≠ .null := by
  match v with
  | .bool b =>
    simp only [layVal, Res.ok.injEq] at hd
    subst hd
    cases b <;> simp
  | .int i =>
    cases ty <;> simp only [layVal, Res.ok.injEq, reduceCtorEq] at hd
    subst hd
    simp
  | .str s =>
    cases ty <;> simp only [layVal, reduceCtorEq] at hd
    rw [Res.bind_eq_ok] at hd
    obtain ⟨b, -, hd⟩ := hd
    cases hd
    simp
  | .txt s =>
    cases ty <;> simp only [layVal, HasTy, reduceCtorEq] at hd h
    exact readsTxt_ne_null (layTxt_reads h.2 hd)
  | .date x =>
    simp only [layVal] at hd
    split at hd
    · rw [Res.bind_eq_ok] at hd
      obtain ⟨c, -, hd⟩ := hd
      cases hd
      simp
    · cases hd
  | .real x =>
    simp only [layVal] at hd
    split at hd
    · rw [Res.bind_eq_ok] at hd
      obtain ⟨c, -, hd⟩ := hd
      cases hd
      simp
    · cases hd
  | .lit x =>
    simp only [layVal] at hd
    split at hd
    · exact layLit_ne_null hd
    · cases hd
  | .none => exact absurd rfl hne
  | .some v =>
    cases ty <;> simp only [layVal, HasTy, reduceCtorEq] at hd h
    exact layVal_ne_null n _ v h.2 h.1 hd
  | .arr vs =>
    cases ty <;> simp only [layVal, reduceCtorEq] at hd
    rw [Res.bind_eq_ok] at hd
    obtain ⟨es, he, hd⟩ := hd
    cases hd
    simp
  | .map kvs =>
    cases ty <;> simp only [layVal, reduceCtorEq] at hd
    rw [Res.bind_eq_ok] at hd
    obtain ⟨es, he, hd⟩ := hd
    cases hd
    simp
  | .cls vs =>
    cases ty <;> simp only [layVal, reduceCtorEq] at hd
    split at hd <;> first | cases hd | skip
    all_goals
      rw [Res.bind_eq_ok] at hd
      obtain ⟨es, he, hd⟩ := hd
      cases hd
      simp
  | .alt k v =>
    obtain ⟨ty', h1, h2, h3⟩ := hasTy_alt h
    simp only [layVal, h1] at hd
    exact layVal_ne_null n ty' v h3 h2 hd

theorem layMembers_names (n : Nat) (ms : List Member) (vs : List Val) {jm : JMems} (hd : layMembers w Δ n ms vs = .ok jm) :
    jm.names.Sublist (ms.map Member.name) := by
  induction vs generalizing ms jm with
  | nil =>
    simp only [layMembers, Res.ok.injEq] at hd
    subst hd
    exact List.nil_sublist _
  | cons v vs ih =>
    cases ms with
    | nil => simp [layMembers] at hd
    | cons m ms =>
      simp only [layMembers] at hd
      split at hd
      · exact (ih ms hd).cons _
      · rw [Res.bind_eq_ok] at hd
        obtain ⟨d, h1, hd⟩ := hd
        rw [Res.bind_eq_ok] at hd
        obtain ⟨es', h2, hd⟩ := hd
        cases hd
        exact (ih ms h2).cons_cons _

theorem readsOrdered_gap {nm : List Bytes → Bytes → Prop} {ea ex : Bool} {n : Nat} {ty : Ty} {es : JElems} {vs : List Val}
    {want : Nat} (h : ReadsOrdered Δ nm ea ex want [(some want, ty)] es vs) :
    ∀ k idx, idx + k = want → ReadsOrdered Δ nm ea ex idx [(some want, ty)] (gapElems w n k es) vs := by
  intro k
  induction k with
  | zero => intro idx hi; cases (show idx = want by omega); exact h
  | succ k ih => intro idx hi; exact .skip (by omega) (ih (idx + 1) (by omega))

/-- What is needed to read back what was written. -/
structure Readable (nm : List Bytes → Bytes → Prop) (ea tc : Bool) (Δ : Env) : Prop where
  names : ∀ i ms ex, Δ i = .obj ms ex → ∀ m ∈ ms, nm (ms.map Member.name) m.name
  /-- A class stored in an array with an exact mapping does not go with trailing commas. -/
  exact : tc = true → ∀ i ms ex, Δ i = .ord ms ex → (ex || ea) = false
  /-- The members of an alternative are not mistaken for the tag, and may stand beside it. -/
  tags : ∀ i tag sw alts, Δ i = .ivar tag sw alts → ea = false ∧
    ∀ j ms ex, Ty.ref j ∈ alts → Δ j = .obj ms ex → ∀ m ∈ ms, nm [tag.name] m.name

theorem readsMembers_one {nm : List Bytes → Bytes → Prop} {ea : Bool} {ms : List Member} {jm : JMems} {vs : List Val}
    (h : ReadsMembers Δ nm ea ms jm vs) {p : Nat} {m : Member} {x : Val} (hm : ms[p]? = some m) (hx : vs[p]? = some x) :
    ReadsMembers Δ nm ea [m] jm [x] := by
  induction ms generalizing vs p with
  | nil => simp at hm
  | cons m' ms ih =>
    cases p with
    | zero =>
      simp only [List.getElem?_cons_zero, Option.some.injEq] at hm
      subst hm
      cases h with
      | found h1 h2 h3 =>
        simp only [List.getElem?_cons_zero, Option.some.injEq] at hx
        subst hx
        exact .found h1 h2 .nil
      | absent h1 h2 h3 =>
        simp only [List.getElem?_cons_zero, Option.some.injEq] at hx
        subst hx
        exact .absent h1 h2 .nil
    | succ p =>
      cases h with
      | found h1 h2 h3 => exact ih h3 (by simpa using hm) (by simpa using hx)
      | absent h1 h2 h3 => exact ih h3 (by simpa using hm) (by simpa using hx)

variable {nm : List Bytes → Bytes → Prop} {ea : Bool}

theorem closing_ws (n : Nat) (e : Bool) (h : w.tc = false) : IsWs (closing w n e) := by
  unfold closing trailing
  split
  · exact ws_empty
  · simpa [h] using nextMember_ws w n

mutual
theorem layVal_reads (hΔ : Writable Δ) (hr : Readable nm ea w.tc Δ) (n : Nat) (ty : Ty) (v : Val)
    (h : HasTy Δ ValidUtf8 T ty v) {d : JVal} (hd : layVal w Δ n ty v = .ok d) : Reads Δ nm ea ty d v := by
  match v with
  | .bool b =>
    rw [HasTy] at h
    subst h
    simp only [layVal, Res.ok.injEq] at hd
    subst hd
    cases b
    · exact .fls
    · exact .tru
  | .int i =>
    cases ty <;> simp only [HasTy] at h
    simp only [layVal, Res.ok.injEq] at hd
    subst hd
    exact .int h.1 h.2 (C14_output_is_canonical _ _ h.2)
  | .str s =>
    cases ty <;> simp only [HasTy] at h
    simp only [layVal] at hd
    rw [Res.bind_eq_ok] at hd
    obtain ⟨b, hb, hd⟩ := hd
    cases hd
    obtain ⟨l, h1, rfl⟩ := h
    obtain ⟨b', h2, h3⟩ := writeStrBody_utf8 _ _ l h1
    rw [h2] at hb
    cases hb
    exact .str h3
  | .txt s =>
    cases ty <;> simp only [HasTy] at h
    simp only [layVal] at hd
    exact .txt (layTxt_reads h.2 hd)
  | .date x =>
    cases ty <;> simp only [HasTy] at h
    rename_i k
    cases k <;> simp only at h
    simp only [layVal] at hd
    obtain ⟨c, h1, -, h2⟩ := date_civil h.1 h.2.1
    rw [h1] at hd
    cases hd
    exact .txt (.date (h2 h.2.2))
  | .real x =>
    cases ty <;> simp only [HasTy] at h
    rename_i k
    cases k <;> simp only at h
    obtain ⟨t, ht, hrd⟩ := toChars_reads h
    simp only [layVal, ht, Res.ok_bind, Res.ok.injEq] at hd
    subst hd
    exact .txt hrd
  | .lit x =>
    cases ty <;> simp only [HasTy] at h
    rename_i k
    cases k <;> simp only at h
    rename_i al l
    obtain ⟨d', b, h1, h2, -, h3⟩ := layLit_cases (al := al) h
    simp only [layVal, h1, Res.ok.injEq] at hd
    subst hd
    rcases h3 with ⟨rfl, rfl⟩ | ⟨rfl, rfl, h3⟩
    · exact .txt (.quoted h2)
    · exact .txt (.bare (by rcases h3 with rfl | rfl | ⟨h3, -⟩ <;> first | trivial | (rw [h3]; trivial)) h2)
  | .none =>
    cases ty <;> simp only [HasTy] at h
    simp only [layVal, Res.ok.injEq] at hd
    subst hd
    exact .null
  | .some v =>
    cases ty <;> simp only [HasTy] at h
    simp only [layVal] at hd
    exact .some (layVal_ne_null n _ v h.2 h.1 hd) (layVal_reads hΔ hr n _ v h.2 hd)
  | .arr vs =>
    cases ty <;> simp only [HasTy] at h
    simp only [layVal] at hd
    rw [Res.bind_eq_ok] at hd
    obtain ⟨es, he, hd⟩ := hd
    cases hd
    refine .arr (fun hn => ?_) (layElems_reads hΔ hr _ _ vs h he)
    rw [(layElems_nil he).2 hn]
    exact ws_empty
  | .map kvs =>
    cases ty <;> simp only [HasTy] at h
    simp only [layVal] at hd
    rw [Res.bind_eq_ok] at hd
    obtain ⟨es, he, hd⟩ := hd
    cases hd
    refine .map (fun hn => ?_) (layPairs_reads hΔ hr _ _ kvs h he)
    rw [(layPairs_nil he).2 hn]
    exact ws_empty
  | .cls vs =>
    cases ty <;> simp only [HasTy] at h
    rename_i i
    simp only [layVal] at hd
    cases hi : Δ i with
    | obj ms ex =>
      simp only [hi] at h hd
      rw [Res.bind_eq_ok] at hd
      obtain ⟨jm, he, hd⟩ := hd
      cases hd
      have hsub := layMembers_names _ ms vs he
      have hin : ∀ x ∈ jm.names, ∃ m ∈ ms, m.name = x := fun x hx => List.mem_map.1 (hsub.subset hx)
      refine .obj hi ?_ ?_ (fun _ => hin)
        (layMembers_reads hΔ hr _ ms vs h (hΔ.nodup.nodup i ms ex hi) he jm fun _ _ => rfl)
      · intro x hx
        obtain ⟨m, hm, rfl⟩ := hin x hx
        exact hr.names i ms ex hi m hm
      · intro m _
        exact List.nodup_iff_count.1 (hsub.nodup (hΔ.nodup.nodup i ms ex hi)) _
    | tup ts ex =>
      simp only [hi] at h hd
      rw [Res.bind_eq_ok] at hd
      obtain ⟨es, he, hd⟩ := hd
      cases hd
      exact .tup hi (layTuple_reads hΔ hr _ ts vs h he)
    | ord ms ex =>
      simp only [hi] at h hd
      rw [Res.bind_eq_ok] at hd
      obtain ⟨es, he, hd⟩ := hd
      cases hd
      have hlen := hasList_length h
      rw [List.length_map] at hlen
      refine .ord hi ?_ ?_ (layOrdered_reads hΔ hr _ _ ms vs h (hΔ.compact i ms ex hi) he)
      · rintro rfl
        rcases layOrdered_cases hlen he with ⟨-, h⟩ | ⟨h, -⟩
        · exact h
        · exact absurd rfl h
      · intro hex
        split
        · exact nextMember_ws _ _
        · refine closing_ws _ _ ?_
          cases htc : w.tc with
          | false => rfl
          | true => rw [hr.exact htc i ms ex hi] at hex; simp at hex
    | var alts => simp only [hi] at h
    | ivar tag sw alts => simp only [hi] at h
  | .alt k v =>
    obtain ⟨ty', h1, h2, h3⟩ := hasTy_alt h
    simp only [layVal, h1] at hd
    have hv := layVal_reads hΔ hr n ty' v h3 hd
    have hne := layVal_ne_null n ty' v h3 h2 hd
    cases ty <;> simp only [HasTy] at h
    rename_i i
    cases hi : Δ i with
    | obj ms ex => simp only [hi] at h
    | tup ts ex => simp only [hi] at h
    | ord ms ex => simp only [hi] at h
    | var alts =>
      simp only [altTys, hi] at h1
      exact .var hi h1 hne hv
    | ivar tag sw alts =>
      simp only [altTys, hi] at h1
      simp only [hi] at h
      obtain ⟨⟨j, ms, ex, vs, p, x, hj, hms, rfl, hp, hx, hsw⟩, -⟩ := h
      rw [hj] at h1
      cases h1
      simp only [layVal, hms] at hd
      rw [Res.bind_eq_ok] at hd
      obtain ⟨jm, he, hd⟩ := hd
      cases hd
      have hsub := layMembers_names _ ms vs he
      obtain ⟨hea, hnm⟩ := hr.tags i tag sw alts hi
      have hmem : ReadsMembers Δ nm ea ms jm vs := by
        generalize hty : Ty.ref j = ty at hv
        generalize hvv : Val.cls vs = vv at hv
        cases hv with
        | obj hi' _ _ _ hm => cases hty; cases hvv; rw [hms] at hi'; cases hi'; exact hm
        | _ => first | (cases hvv; done) | cases hty
      subst hsw
      refine .ivar hi ?_ ?_ (fun h => by simp [hea] at h) (readsMembers_one hmem hp hx) hj hv
      · intro y hy
        obtain ⟨m, hm, rfl⟩ := List.mem_map.1 (hsub.subset hy)
        exact hnm j ms ex (List.mem_of_getElem? hj) hms m hm
      · exact List.nodup_iff_count.1 (hsub.nodup (hΔ.nodup.nodup j ms ex hms)) _
theorem layElems_reads (hΔ : Writable Δ) (hr : Readable nm ea w.tc Δ) (n : Nat) (ty : Ty) (vs : List Val)
    (h : HasElems Δ ValidUtf8 T ty vs) {es : JElems} (hd : layElems w Δ n ty vs = .ok es) : ReadsElems Δ nm ea ty es vs := by
  match vs with
  | [] =>
    simp only [layElems, Res.ok.injEq] at hd
    subst hd
    exact .nil
  | v :: vs =>
    rw [HasElems] at h
    simp only [layElems] at hd
    rw [Res.bind_eq_ok] at hd
    obtain ⟨d, h1, hd⟩ := hd
    rw [Res.bind_eq_ok] at hd
    obtain ⟨es', h2, hd⟩ := hd
    cases hd
    exact .cons (layVal_reads hΔ hr n ty v h.1 h1) (layElems_reads hΔ hr n ty vs h.2 h2)
theorem layPairs_reads (hΔ : Writable Δ) (hr : Readable nm ea w.tc Δ) (n : Nat) (ty : Ty) (kvs : List (Bytes × Val))
    (h : HasPairs Δ ValidUtf8 T ty kvs) {es : JMems} (hd : layPairs w Δ n ty kvs = .ok es) :
    ReadsPairs Δ nm ea ty es kvs := by
  match kvs with
  | [] =>
    simp only [layPairs, Res.ok.injEq] at hd
    subst hd
    exact .nil
  | (k, v) :: kvs =>
    rw [HasPairs] at h
    obtain ⟨⟨l, hl, rfl⟩, hv, hrest⟩ := h
    simp only [layPairs] at hd
    rw [Res.bind_eq_ok] at hd
    obtain ⟨b, h0, hd⟩ := hd
    rw [Res.bind_eq_ok] at hd
    obtain ⟨d, h1, hd⟩ := hd
    rw [Res.bind_eq_ok] at hd
    obtain ⟨es', h2, hd⟩ := hd
    cases hd
    obtain ⟨b', h3, h4⟩ := writeStrBody_utf8 (false || w.only7bit) w.errInvalid l hl
    rw [h3] at h0
    cases h0
    exact .cons h4 (layVal_reads hΔ hr n ty v hv h1) (layPairs_reads hΔ hr n ty kvs hrest h2)
theorem layMembers_reads (hΔ : Writable Δ) (hr : Readable nm ea w.tc Δ) (n : Nat) (ms : List Member) (vs : List Val)
    (h : HasList Δ ValidUtf8 T (ms.map Member.ty) vs) (hnd : (ms.map Member.name).Nodup) {jm : JMems}
    (hd : layMembers w Δ n ms vs = .ok jm) (J : JMems) (hJ : ∀ m ∈ ms, J.get? m.name = jm.get? m.name) :
    ReadsMembers Δ nm ea ms J vs := by
  match vs with
  | [] =>
    rw [HasList] at h
    have : ms = [] := by simpa using h
    subst this
    exact .nil
  | v :: vs =>
    cases ms with
    | nil => simp [HasList] at h
    | cons m ms =>
      simp only [List.map_cons, HasList] at h
      simp only [List.map_cons, List.nodup_cons] at hnd
      simp only [layMembers] at hd
      split at hd
      · rename_i hopt
        rw [Bool.and_eq_true] at hopt
        have hv : v = .none := by cases v <;> simp_all [Val.isNone]
        subst hv
        refine .absent ?_ hopt.1 (layMembers_reads hΔ hr n ms vs h.2 hnd.2 hd J fun m' hm' => hJ m' (by simp [hm']))
        rw [hJ m (by simp), JMems_get?_none]
        exact fun hx => hnd.1 ((layMembers_names _ ms vs hd).subset hx)
      · rw [Res.bind_eq_ok] at hd
        obtain ⟨d, h1, hd⟩ := hd
        rw [Res.bind_eq_ok] at hd
        obtain ⟨es', h2, hd⟩ := hd
        cases hd
        refine .found (d := d) ?_ (layVal_reads hΔ hr n _ v h.1 h1) (layMembers_reads hΔ hr n ms vs h.2 hnd.2 h2 J ?_)
        · rw [hJ m (by simp)]
          simp [JMems.get?, JMems.toList]
        · intro m' hm'
          rw [hJ m' (by simp [hm'])]
          have : m'.name ≠ m.name := fun he => hnd.1 (he ▸ List.mem_map_of_mem hm')
          have hb : (m'.name == m.name) = false := by simpa using this
          simp [JMems.get?, JMems.toList, List.lookup_cons, hb]
theorem layTuple_reads (hΔ : Writable Δ) (hr : Readable nm ea w.tc Δ) (n : Nat) (ts : List Ty) (vs : List Val)
    (h : HasList Δ ValidUtf8 T ts vs) {ex : Bool} {es : JElems} (hd : layTuple w Δ n ts vs = .ok es) :
    ReadsTuple Δ nm ea ex ts es vs := by
  match vs with
  | [] =>
    rw [HasList] at h
    subst h
    simp only [layTuple, Res.ok.injEq] at hd
    subst hd
    exact .nil (fun _ => rfl) (by simp)
  | v :: vs =>
    cases ts with
    | nil => simp [HasList] at h
    | cons ty ts =>
      rw [HasList] at h
      simp only [layTuple] at hd
      rw [Res.bind_eq_ok] at hd
      obtain ⟨d, h1, hd⟩ := hd
      rw [Res.bind_eq_ok] at hd
      obtain ⟨es', h2, hd⟩ := hd
      cases hd
      exact .cons (layVal_reads hΔ hr n ty v h.1 h1) (layTuple_reads hΔ hr n ts vs h.2 h2)
theorem layOrdered_reads (hΔ : Writable Δ) (hr : Readable nm ea w.tc Δ) (n idx : Nat) (ms : List (Option Nat × Ty))
    (vs : List Val) (h : HasList Δ ValidUtf8 T (ms.map Prod.snd) vs) (hc : Compact idx ms) {ex : Bool} {es : JElems}
    (hd : layOrdered w Δ n idx ms vs = .ok es) : ReadsOrdered Δ nm ea ex idx ms es vs := by
  match vs with
  | [] =>
    rw [HasList] at h
    have : ms = [] := by simpa using h
    subst this
    simp only [layOrdered, Res.ok.injEq] at hd
    subst hd
    exact .nil fun _ => rfl
  | v :: vs =>
    cases ms with
    | nil => simp [HasList] at h
    | cons m ms =>
      obtain ⟨want, ty⟩ := m
      simp only [List.map_cons, HasList] at h
      simp only [layOrdered] at hd
      rw [Res.bind_eq_ok] at hd
      obtain ⟨d, h1, hd⟩ := hd
      rw [Res.bind_eq_ok] at hd
      obtain ⟨es', h2, hd⟩ := hd
      cases hd
      have hv := layVal_reads hΔ hr n ty v h.1 h1
      cases ms with
      | nil =>
        have hvs : vs = [] := by
          have := hasList_length h.2
          cases vs <;> simp_all
        subst hvs
        simp only [layOrdered, Res.ok.injEq] at h2
        subst h2
        cases want with
        | none =>
          simp only [Option.getD_none, Nat.sub_self, gapElems]
          exact .read (Or.inl rfl) hv (.nil fun _ => rfl)
        | some x =>
          have hx := hc x rfl
          simp only [Option.getD_some]
          exact readsOrdered_gap (.read (Or.inr rfl) hv (.nil fun _ => rfl)) _ _ (by omega)
      | cons m' ms =>
        have hw : want = none ∨ want = some idx := by
          cases want with
          | none => exact Or.inl rfl
          | some x => exact Or.inr (by rw [hc.1 x rfl])
        have hg : want.getD idx - idx = 0 := by rcases hw with rfl | rfl <;> simp
        rw [hg]
        exact .read hw hv (layOrdered_reads hΔ hr n (idx + 1) (m' :: ms) vs h.2 hc.2 h2)
end

/-! ## Where the members of an ordered class are written -/

theorem gapElems_toList (n k : Nat) (es : JElems) :
    (gapElems w n k es).toList = List.replicate k JVal.null ++ es.toList := by
  induction k with
  | zero => rfl
  | succ k ih => simp [gapElems, JElems.toList, ih, List.replicate_succ]

theorem layOrdered_at (n idx : Nat) (ms : List (Option Nat × Ty)) (vs : List Val) (hl : ms.length = vs.length)
    (hc : Compact idx ms) {es : JElems} (hd : layOrdered w Δ n idx ms vs = .ok es) :
    (∀ (p : Nat) (want : Option Nat) (ty : Ty) (v : Val), ms[p]? = some (want, ty) → vs[p]? = some v →
      ∃ d, es.toList[want.getD (idx + p) - idx]? = some d ∧ layVal w Δ n ty v = .ok d) ∧
    (∀ (j : Nat) (d : JVal), es.toList[j]? = some d →
      (∃ (p : Nat) (m : Option Nat × Ty), ms[p]? = some m ∧ j + idx = m.1.getD (idx + p)) ∨ d = .null) := by
  induction vs generalizing idx ms es with
  | nil =>
    simp only [layOrdered, Res.ok.injEq] at hd
    subst hd
    have : ms = [] := by simpa using hl
    subst this
    simp [JElems.toList]
  | cons v vs ih =>
    cases ms with
    | nil => simp at hl
    | cons m ms =>
      obtain ⟨want, ty⟩ := m
      simp only [layOrdered] at hd
      rw [Res.bind_eq_ok] at hd
      obtain ⟨d, h1, hd⟩ := hd
      rw [Res.bind_eq_ok] at hd
      obtain ⟨es', h2, hd⟩ := hd
      cases hd
      rw [gapElems_toList]
      simp only [JElems.toList]
      cases ms with
      | nil =>
        have hvs : vs = [] := by cases vs <;> simp_all
        subst hvs
        simp only [layOrdered, Res.ok.injEq] at h2
        subst h2
        simp only [JElems.toList]
        have hw : idx ≤ want.getD idx := by
          cases want with
          | none => simp
          | some x => exact hc x rfl
        constructor
        · intro p want' ty' v' hp hv
          cases p with
          | zero =>
            simp only [List.getElem?_cons_zero, Option.some.injEq, Prod.mk.injEq] at hp hv
            obtain ⟨rfl, rfl⟩ := hp
            subst hv
            refine ⟨d, ?_, h1⟩
            rw [List.getElem?_append_right (by simp)]
            simp
          | succ p => simp at hp
        · intro j d' hj
          rcases Nat.lt_or_ge j (want.getD idx - idx) with hlt | hge
          · rw [List.getElem?_append_left (by simpa using hlt)] at hj
            right
            exact (List.eq_of_mem_replicate (List.mem_of_getElem? hj))
          · left
            rw [List.getElem?_append_right (by simpa using hge)] at hj
            have hj' : j - (want.getD idx - idx) = 0 := by
              have := (List.getElem?_eq_some_iff.1 hj).1
              simp at this
              omega
            exact ⟨0, (want, ty), rfl, by simp only [Nat.add_zero]; omega⟩
      | cons m' ms =>
        have hw : want.getD idx = idx := by
          cases want with
          | none => rfl
          | some x => exact (hc.1 x rfl).symm
        obtain ⟨ih1, ih2⟩ := ih (idx + 1) (m' :: ms) (by simpa using hl) hc.2 h2
        rw [hw, Nat.sub_self, List.replicate_zero, List.nil_append]
        constructor
        · intro p want' ty' v' hp hv
          cases p with
          | zero =>
            simp only [List.getElem?_cons_zero, Option.some.injEq, Prod.mk.injEq] at hp hv
            obtain ⟨rfl, rfl⟩ := hp
            subst hv
            refine ⟨d, ?_, h1⟩
            rw [Nat.add_zero, hw, Nat.sub_self]
            rfl
          | succ p =>
            obtain ⟨d', hd1, hd2⟩ := ih1 p want' ty' v' (by simpa using hp) (by simpa using hv)
            refine ⟨d', ?_, hd2⟩
            rw [show idx + (p + 1) = idx + 1 + p by omega]
            have hgt : idx + 1 ≤ want'.getD (idx + 1 + p) := by
              have : ∀ (ms : List (Option Nat × Ty)) (i p : Nat) (m : Option Nat × Ty), Compact i ms → ms[p]? = some m →
                  i ≤ m.1.getD (i + p) := by
                intro ms
                induction ms with
                | nil => intro i p m _ h; simp at h
                | cons a as iha =>
                  intro i p m hcc h
                  cases as with
                  | nil =>
                    cases p with
                    | zero =>
                      simp only [List.getElem?_cons_zero, Option.some.injEq] at h
                      subst h
                      obtain ⟨wa, ta⟩ := a
                      cases wa with
                      | none => simp
                      | some x => exact hcc x rfl
                    | succ p => simp at h
                  | cons b bs =>
                    obtain ⟨wa, ta⟩ := a
                    cases p with
                    | zero =>
                      simp only [List.getElem?_cons_zero, Option.some.injEq] at h
                      subst h
                      cases wa with
                      | none => simp
                      | some x => exact Nat.le_of_eq (hcc.1 x rfl)
                    | succ p =>
                      have := iha (i + 1) p m hcc.2 (by simpa using h)
                      rw [show i + (p + 1) = i + 1 + p by omega]
                      omega
              exact this (m' :: ms) (idx + 1) p (want', ty') hc.2 (by simpa using hp)
            rw [show want'.getD (idx + 1 + p) - idx = (want'.getD (idx + 1 + p) - (idx + 1)) + 1 by omega]
            simpa using hd1
        · intro j d' hj
          cases j with
          | zero => exact Or.inl ⟨0, (want, ty), rfl, by simp [hw]⟩
          | succ j =>
            rcases ih2 j d' (by simpa using hj) with ⟨p, m, hp, hpj⟩ | h
            · exact Or.inl ⟨p + 1, m, by simpa using hp, by rw [show idx + (p + 1) = idx + 1 + p by omega]; omega⟩
            · exact Or.inr h

end Verif
