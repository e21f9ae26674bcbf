import Verif.Proof.Schema

/-!
# The schema that is written: well-formed, a schema, and what it says
-/

namespace Verif

open Spec

/-! ## Well-formed -/

theorem ws_notRoot (w : WCfg) (n : Nat) (root : Bool) : IsWs (notRoot root (nextMember w n)) := by
  cases root
  · exact nextMember_ws w n
  · intro c hc; cases hc

theorem ws_space (w : WCfg) : IsWs (spaceText w) := by
  rw [spaceText]
  split
  · intro c hc
    rw [List.mem_singleton.1 hc]
    exact Or.inl rfl
  · intro c hc; cases hc

theorem ws_nil : IsWs [] := by intro c hc; cases hc

theorem ws_append {a b : Bytes} (ha : IsWs a) (hb : IsWs b) : IsWs (a ++ b) := by
  intro c hc
  rcases List.mem_append.1 hc with h | h
  · exact ha c h
  · exact hb c h

theorem sTail_ws (w : WCfg) (n : Nat) (root : Bool) : (t : STy) → IsWs (sTail w n root t)
  | .null t => sTail_ws w n root t
  | .obj _ => ws_notRoot w n root
  | .ord _ => ws_notRoot w n root
  | .bool | .real | .signed | .unsigned | .string | .date | .arr _ | .kv _ | .tup _ | .variant _ => nextMember_ws w n

/-- ASCII text without control characters, quotes and backslashes can stand between quotes. -/
theorem plainBody {b : Bytes} (h : b.all (fun c => decide (0x20 ≤ c) && (c != 0x22) && (c != 0x5C)) = true) :
    IsStrBody b := by
  induction b with
  | nil => exact .nil
  | cons c cs ih =>
    simp only [List.all_cons, Bool.and_eq_true, decide_eq_true_eq, bne_iff_ne] at h
    exact .plain h.1.1.1 h.1.1.2 h.1.2 (ih h.2)

theorem mem_wf {w : WCfg} {pre name : Bytes} {v : JVal} {tl : JMems} (hp : IsWs pre) (hn : IsStrBody name) (hv : v.WF)
    (ht : tl.WFt false) : (mem w pre name v tl).WFt false :=
  ⟨hp, hn, ws_nil, ws_space w, hv, ws_nil, ht⟩

theorem sReq_wf (w : WCfg) (n : Nat) : (ms : SMems) → ms.NamesOk IsStrBody → (sReq w n ms).WFt false
  | .nil, _ => trivial
  | .cons name dep t tl, h => by
    rw [sReq]
    split
    · exact sReq_wf w n tl h.2.2.2
    · exact ⟨nextMember_ws w n, h.1, ws_nil, sReq_wf w n tl h.2.2.2⟩

theorem sDeps_wf (w : WCfg) (n : Nat) : (ms : SMems) → ms.NamesOk IsStrBody → (sDeps w n ms).WFt false
  | .nil, _ => trivial
  | .cons name dep t tl, h => by
    cases dep with
    | none => exact sDeps_wf w n tl h.2.2.2
    | some dn =>
      exact mem_wf (nextMember_ws w n) h.1
        ⟨Or.inl (nextMember_ws w n), nextMember_ws w _, h.2.1 dn rfl, ws_nil, trivial⟩ (sDeps_wf w n tl h.2.2.2)

theorem sClassEnd_wf (w : WCfg) (n : Nat) (ms : SMems) (h : ms.NamesOk IsStrBody) : (sClassEnd w n ms).WFt false := by
  refine mem_wf (nextMember_ws w n) (plainBody (by decide)) ⟨Or.inl (nextMember_ws w n), sReq_wf w _ ms h⟩ ?_
  split
  · exact mem_wf (nextMember_ws w n) (plainBody (by decide)) ⟨Or.inl (nextMember_ws w n), sDeps_wf w _ ms h⟩ trivial
  · trivial

mutual
theorem sMems_wf (w : WCfg) (n : Nat) (root : Bool) (t : STy) (h : t.NamesOk IsStrBody) : (sMems w n root t).WFt false := by
  match t with
  | .bool | .real | .signed | .string =>
    exact mem_wf (ws_notRoot w _ root) (plainBody (by decide)) (plainBody (by decide)) trivial
  | .date =>
    exact mem_wf (ws_notRoot w _ root) (plainBody (by decide)) (plainBody (by decide))
      (mem_wf (nextMember_ws w _) (plainBody (by decide)) (plainBody (by decide)) trivial)
  | .unsigned =>
    exact mem_wf (ws_notRoot w _ root) (plainBody (by decide)) (plainBody (by decide))
      (mem_wf (nextMember_ws w _) (plainBody (by decide))
        ⟨[], asc! "0", [], [], Or.inl rfl, Or.inl rfl, Or.inl rfl, Or.inl rfl, rfl⟩ trivial)
  | .null t => rw [sMems]; exact sMems_wf w n root t h
  | .arr t | .kv t =>
    exact mem_wf (nextMember_ws w _) (plainBody (by decide)) (plainBody (by decide))
      (mem_wf (nextMember_ws w _) (plainBody (by decide))
        ⟨Or.inl (sTail_ws w _ false t), sMems_wf w _ false t h⟩ trivial)
  | .tup ts =>
    refine mem_wf (nextMember_ws w _) (plainBody (by decide)) (plainBody (by decide))
      (mem_wf (nextMember_ws w _) (plainBody (by decide)) ⟨Or.inl ?_, sItems_wf w _ ts h⟩ trivial)
    split
    · exact ws_nil
    · exact nextMember_ws w _
  | .variant ts =>
    refine mem_wf (nextMember_ws w _) (plainBody (by decide)) ⟨Or.inl ?_, sItems_wf w _ ts h⟩ trivial
    split
    · exact ws_nil
    · exact nextMember_ws w _
  | .obj ms =>
    rw [sMems]
    split
    · trivial
    · exact mem_wf (nextMember_ws w _) (plainBody (by decide)) (plainBody (by decide))
        (mem_wf (nextMember_ws w _) (plainBody (by decide)) ⟨Or.inl (nextMember_ws w _), sProps_wf w _ ms h⟩
          (sClassEnd_wf w _ ms h))
  | .ord ts =>
    rw [sMems]
    split
    · trivial
    · exact mem_wf (nextMember_ws w _) (plainBody (by decide)) (plainBody (by decide))
        (mem_wf (nextMember_ws w _) (plainBody (by decide)) ⟨Or.inl (nextMember_ws w _), sItems_wf w _ ts h⟩ trivial)
theorem sItems_wf (w : WCfg) (n : Nat) (ts : STys) (h : ts.NamesOk IsStrBody) : (sItems w n ts).WFt false := by
  match ts with
  | .nil => trivial
  | .cons t tl =>
    exact ⟨nextMember_ws w n, ⟨Or.inl (sTail_ws w n false t), sMems_wf w n false t h.1⟩, ws_nil, sItems_wf w n tl h.2⟩
theorem sProps_wf (w : WCfg) (n : Nat) (ms : SMems) (h : ms.NamesOk IsStrBody) : (sProps w n ms).WFt false := by
  match ms with
  | .nil => trivial
  | .cons name dep t tl =>
    exact mem_wf (nextMember_ws w n) h.1 ⟨Or.inl (sTail_ws w n false t), sMems_wf w n false t h.2.2.1⟩
      (sProps_wf w n tl h.2.2.2)
end

theorem sRoot_wf (w : WCfg) (t : STy) {id title : Bytes} (h : t.NamesOk IsStrBody) (hi : IsStrBody id) (ht : IsStrBody title) :
    (sRoot w t id title).WF :=
  ⟨Or.inl (ws_append (sTail_ws w 1 true t) (nextMember_ws w 0)),
    mem_wf (nextMember_ws w 1) (plainBody (by decide)) (plainBody (by decide))
      (mem_wf (nextMember_ws w 1) (plainBody (by decide)) hi
        (mem_wf (nextMember_ws w 1) (plainBody (by decide)) ht (sMems_wf w 1 true t h)))⟩

/-! ## A schema -/

theorem kwOk_type {D : Draft} {w : WCfg} {pre : Bytes} {t : Bytes} {tl : JMems} (ht : t ∈ typeNames) (h : KeywordsOk D tl) :
    KeywordsOk D (mem w pre asc! "type" (.str t) tl) := by
  simp [mem, KeywordsOk, h, ht]

theorem sReq_strings (w : WCfg) (n : Nat) (x : Bytes) : (ms : SMems) →
    (∀ e ∈ (sReq w n ms).toList, ∃ b, e = .str b) ∧ ((JVal.arr x (sReq w n ms)).strings).Sublist ms.names
  | .nil => ⟨fun _ he => (by cases he), List.Sublist.refl _⟩
  | .cons name dep t tl => by
    have ih := sReq_strings w n x tl
    rw [sReq]
    split
    · exact ⟨ih.1, ih.2.cons _⟩
    · constructor
      · intro e he
        rcases List.mem_cons.1 he with rfl | he
        · exact ⟨_, rfl⟩
        · exact ih.1 e he
      · exact ih.2.cons_cons _

theorem sDeps_ok (w : WCfg) (n : Nat) : (ms : SMems) → ∀ p ∈ (sDeps w n ms).toList, IsNames p.2
  | .nil => by intro p hp; cases hp
  | .cons name dep t tl => by
    have ih := sDeps_ok w n tl
    cases dep with
    | none => exact ih
    | some dn =>
      intro p hp
      rcases List.mem_cons.1 hp with rfl | hp
      · refine ⟨_, _, rfl, ?_, ?_⟩
        · intro e he
          rcases List.mem_cons.1 he with rfl | he
          · exact ⟨_, rfl⟩
          · cases he
        · simp [JVal.strings, JVal.elems, JElems.toList]
      · exact ih p hp

theorem sClassEnd_ok (D : Draft) (w : WCfg) (n : Nat) (ms : SMems) (h : ms.names.Nodup) : KeywordsOk D (sClassEnd w n ms) := by
  have h1 : IsNames (.arr (nextMember w n) (sReq w (n + 1) ms)) :=
    ⟨_, _, rfl, (sReq_strings w _ [] ms).1, h.sublist (sReq_strings w _ _ ms).2⟩
  have h2 := sDeps_ok w (n + 1) ms
  rw [sClassEnd]
  split
  · simpa [mem, KeywordsOk, h1, JVal.mems] using h2
  · simp [mem, KeywordsOk, h1]

theorem sItems_ne {w : WCfg} {n : Nat} {ts : STys} (h : ts.isNil = false) : sItems w n ts ≠ .nil := by
  cases ts with
  | nil => cases h
  | cons => simp [sItems]

mutual
theorem sMems_ok (D : Draft) (w : WCfg) (n : Nat) (root : Bool) (t : STy) (h : t.Sound D) :
    KeywordsOk D (sMems w n root t) := by
  match t with
  | .bool | .real | .signed | .string => exact kwOk_type (by decide) trivial
  | .date => exact kwOk_type (by decide) (by simp [mem, KeywordsOk])
  | .unsigned => exact kwOk_type (by decide) (by simp [mem, KeywordsOk])
  | .null t => rw [sMems]; exact sMems_ok D w n root t h
  | .arr t | .kv t =>
    have ih := sMems_ok D w (inner root n) false t h
    exact kwOk_type (by decide) (by simp [mem, KeywordsOk, IsSchema, ih])
  | .tup ts =>
    have ih := sItems_ok D w (inner root n + 1) ts h.2.2
    exact kwOk_type (by decide) (by simp only [mem, KeywordsOk]; simp; exact ⟨h.1, sItems_ne h.2.1, ih⟩)
  | .variant ts =>
    have ih := sItems_ok D w (inner root n + 1) ts h.2
    simp [sMems, mem, KeywordsOk, ih, sItems_ne h.1]
  | .obj ms =>
    have ih := sProps_ok D w (inner root n + 1) ms h.2
    have he := sClassEnd_ok D w (inner root n) ms h.1
    rw [sMems]
    split
    · trivial
    · exact kwOk_type (by decide) (by simp [mem, KeywordsOk, ih, he])
  | .ord ts =>
    have ih := sItems_ok D w (inner root n + 1) ts h.2
    rw [sMems]
    split
    · trivial
    · next hn =>
      have hn : ts.isNil = false := by simpa using hn
      exact kwOk_type (by decide) (by simp only [mem, KeywordsOk]; simp; exact ⟨h.1 hn, sItems_ne hn, ih⟩)
theorem sItems_ok (D : Draft) (w : WCfg) (n : Nat) (ts : STys) (h : ts.Sound D) : SchemasOk D (sItems w n ts) := by
  match ts with
  | .nil => trivial
  | .cons t tl => exact ⟨sMems_ok D w n false t h.1, sItems_ok D w n tl h.2⟩
theorem sProps_ok (D : Draft) (w : WCfg) (n : Nat) (ms : SMems) (h : ms.Sound D) : PropertiesOk D (sProps w n ms) := by
  match ms with
  | .nil => trivial
  | .cons name dep t tl => exact ⟨sMems_ok D w n false t h.1, sProps_ok D w n tl h.2⟩
end

theorem sRoot_ok (D : Draft) (w : WCfg) (t : STy) (id title : Bytes) (h : t.Sound D) : IsSchema D (sRoot w t id title) := by
  simp [sRoot, IsSchema, mem, KeywordsOk, sMems_ok D w 1 true t h]

/-! ## What it says -/

mutual
/-- The documents a schema allows. -/
def SVal (D : Draft) (t : STy) (d : JVal) : Prop :=
  match t with
  | .bool => d = .tru ∨ d = .fls
  | .real => ∃ x, d = .num x
  | .signed => ∃ x, ∃ i : Int, d = .num x ∧ NumDenotes x (i : ℚ)
  | .unsigned => (∃ x, ∃ i : Int, d = .num x ∧ NumDenotes x (i : ℚ)) ∧ ∀ x q, d = .num x → NumDenotes x q → 0 ≤ q
  | .string | .date => ∃ b, d = .str b
  | .null t => SVal D t d
  | .arr t => (∃ w es, d = .arr w es) ∧ ∀ e ∈ d.elems, SVal D t e
  | .kv t => (∃ w ms, d = .obj w ms) ∧ ∀ p ∈ d.mems, SVal D t p.2
  | .tup ts => (∃ w es, d = .arr w es) ∧ D = .upTo2019 ∧ SPos D ts d.elems
  | .variant ts => SOne D ts d
  | .obj ms => ms.isNil = false → (∃ w jm, d = .obj w jm) ∧ SProp D ms d ∧ SReq ms d ∧ (D = .upTo2019 → SDep ms d)
  | .ord ts => ts.isNil = false → (∃ w es, d = .arr w es) ∧ D = .upTo2019 ∧ SPos D ts d.elems
/-- By position. -/
def SPos (D : Draft) (ts : STys) (es : List JVal) : Prop :=
  match ts with
  | .nil => True
  | .cons t tl => (∀ e ∈ es.head?, SVal D t e) ∧ SPos D tl es.tail
/-- Exactly one. -/
def SOne (D : Draft) (ts : STys) (d : JVal) : Prop :=
  match ts with
  | .nil => False
  | .cons t tl => (SVal D t d ∧ SNone D tl d) ∨ (¬ SVal D t d ∧ SOne D tl d)
/-- None. -/
def SNone (D : Draft) (ts : STys) (d : JVal) : Prop :=
  match ts with
  | .nil => True
  | .cons t tl => ¬ SVal D t d ∧ SNone D tl d
/-- By name. -/
def SProp (D : Draft) (ms : SMems) (d : JVal) : Prop :=
  match ms with
  | .nil => True
  | .cons name _ t tl => (∀ p ∈ d.mems, SameName name p.1 → SVal D t p.2) ∧ SProp D tl d
/-- Required members. -/
def SReq (ms : SMems) (d : JVal) : Prop :=
  match ms with
  | .nil => True
  | .cons name _ t tl => (t.isNull = false → HasMember d name) ∧ SReq tl d
/-- Dependent members. -/
def SDep (ms : SMems) (d : JVal) : Prop :=
  match ms with
  | .nil => True
  | .cons name dep _ tl => (∀ dn, dep = some dn → (∃ q ∈ d.mems, SameName name q.1) → HasMember d dn) ∧ SDep tl d
end

section
variable {D : Draft} {ps : List Bytes} {w : WCfg} {pre : Bytes} {v : JVal} {tl : JMems} {d : JVal}

theorem kw_type {t : Bytes} : Keywords D ps (mem w pre asc! "type" (.str t) tl) d ↔ HasType t d ∧ Keywords D ps tl d := by
  simp [mem, Keywords]

theorem type_bool : HasType asc! "boolean" d ↔ (d = .tru ∨ d = .fls) := by simp [HasType]
theorem type_string : HasType asc! "string" d ↔ ∃ b, d = .str b := by simp [HasType]
theorem type_number : HasType asc! "number" d ↔ ∃ x, d = .num x := by simp [HasType]
theorem type_integer : HasType asc! "integer" d ↔ ∃ x, ∃ i : Int, d = .num x ∧ NumDenotes x (i : ℚ) := by simp [HasType]
theorem type_array : HasType asc! "array" d ↔ ∃ w es, d = .arr w es := by simp [HasType]
theorem type_object : HasType asc! "object" d ↔ ∃ w ms, d = .obj w ms := by simp [HasType]

end

theorem propNames_eq (w : WCfg) (n : Nat) (root : Bool) (t : STy) (a b c : JVal) :
    JMems.propNames (mem w (nextMember w 1) asc! "$schema" a (mem w (nextMember w 1) asc! "$id" b
      (mem w (nextMember w 1) asc! "title" c (sMems w n root t)))) = (sMems w n root t).propNames := by
  simp [JMems.propNames, mem, JMems.toList]

theorem propNames_kv (w : WCfg) (p q : Bytes) (a b : JVal) :
    JMems.propNames (mem w p asc! "type" a (mem w q asc! "additionalProperties" b .nil)) = [] := by
  simp [JMems.propNames, mem, JMems.toList]

theorem num_zero : NumDenotes asc! "0" 0 :=
  ⟨false, asc! "0", [], [], [], 0, Or.inl rfl, Or.inl ⟨rfl, rfl⟩, Or.inl ⟨rfl, rfl⟩, rfl, by simp [decVal, digVal]⟩

theorem sReq_valid (w : WCfg) (n : Nat) (x : Bytes) (d : JVal) : (ms : SMems) →
    ((∀ b ∈ (JVal.arr x (sReq w n ms)).strings, HasMember d b) ↔ SReq ms d)
  | .nil => by simp [sReq, SReq, JVal.strings, JVal.elems, JElems.toList]
  | .cons name dep t tl => by
    have ih := sReq_valid w n x d tl
    rw [sReq, SReq, ← ih]
    cases h : t.isNull <;> simp [JVal.strings, JVal.elems, JElems.toList]

theorem sDeps_valid (w : WCfg) (n : Nat) (x : Bytes) (d : JVal) : (ms : SMems) →
    ((∀ p ∈ (JVal.obj x (sDeps w n ms)).mems, (∃ q ∈ d.mems, SameName p.1 q.1) → ∀ b ∈ p.2.strings, HasMember d b) ↔
      SDep ms d)
  | .nil => by simp [sDeps, SDep, JVal.mems, JMems.toList]
  | .cons name dep t tl => by
    have ih := sDeps_valid w n x d tl
    rw [SDep, ← ih]
    cases dep with
    | none => simp [sDeps]
    | some dn => simp [sDeps, mem, JVal.strings, JVal.elems, JElems.toList, JVal.mems, JMems.toList]

theorem sDep_none (d : JVal) : (ms : SMems) → ms.anyDep = false → SDep ms d
  | .nil, _ => by simp [SDep]
  | .cons name dep t tl, h => by
    simp only [SMems.anyDep, Bool.or_eq_false_iff] at h
    rw [SDep]
    refine ⟨fun dn hdn => ?_, sDep_none d tl h.2⟩
    rw [hdn] at h
    cases h.1

theorem sClassEnd_valid (D : Draft) (ps : List Bytes) (w : WCfg) (n : Nat) (ms : SMems) (d : JVal) :
    Keywords D ps (sClassEnd w n ms) d ↔ SReq ms d ∧ (D = .upTo2019 → SDep ms d) := by
  have hr := sReq_valid w (n + 1) (nextMember w n) d ms
  have hd := sDeps_valid w (n + 1) (nextMember w n) d ms
  rw [sClassEnd, mem, Keywords, hr]
  cases h : ms.anyDep
  · simp [Keywords, sDep_none d ms h]
  · simp only [mem, Keywords, hd, ite_true]
    simp

theorem num_zero_unique {b : ℚ} (h : NumDenotes asc! "0" b) : b = 0 := by
  obtain ⟨neg, i, f, fd, x, e, hi, hf, hx, ht, hb⟩ := h
  have hi0 : i ≠ [] := by
    rcases hi with h | h
    · rw [h]; exact List.cons_ne_nil _ _
    · exact h.1.1
  cases neg with
  | true => simp at ht
  | false =>
    cases i with
    | nil => exact absurd rfl hi0
    | cons c cs =>
      simp only [Bool.false_eq_true, ite_false, List.nil_append, List.cons_append, List.cons.injEq] at ht
      obtain ⟨rfl, ht⟩ := ht
      have h0 := List.append_eq_nil_iff.1 ht.symm
      have h1 := List.append_eq_nil_iff.1 h0.2
      have hfd : fd = [] := by
        rcases hf with h | h
        · exact h.2
        · rw [h.1] at h1; cases h1.1
      rw [hb, h0.1, hfd]
      simp [decVal, digVal]

mutual
theorem sMems_valid (D : Draft) (w : WCfg) (n : Nat) (root : Bool) (t : STy) (d : JVal) :
    Keywords D (sMems w n root t).propNames (sMems w n root t) d ↔ SVal D t d := by
  match t with
  | .bool => simp only [sMems, kw_type, type_bool, Keywords, SVal, and_true]
  | .real => simp only [sMems, kw_type, type_number, Keywords, SVal, and_true]
  | .signed => simp only [sMems, kw_type, type_integer, Keywords, SVal, and_true]
  | .string => simp only [sMems, kw_type, type_string, Keywords, SVal, and_true]
  | .date =>
    simp only [sMems, kw_type, type_string, SVal]
    simp [mem, Keywords]
  | .unsigned =>
    simp only [sMems, kw_type, type_integer, SVal]
    refine and_congr_right fun _ => ?_
    simp only [mem, Keywords]
    simp
    constructor
    · intro h x q hd hq
      exact h x _ q rfl hd 0 num_zero hq
    · intro h x m q hm hd b hb hq
      subst hm
      rw [num_zero_unique hb]
      exact h x q hd hq
  | .null t => rw [sMems, SVal]; exact sMems_valid D w n root t d
  | .arr t =>
    have ih := sMems_valid D w (inner root n) false t
    simp only [sMems, kw_type, type_array, SVal]
    refine and_congr_right fun _ => ?_
    simp [mem, Keywords, Valid, ih]
  | .kv t =>
    have ih := sMems_valid D w (inner root n) false t
    simp only [sMems, kw_type, type_object, SVal]
    refine and_congr_right fun _ => ?_
    rw [propNames_kv]
    simp [mem, Keywords, Valid, ih]
  | .tup ts =>
    have ih := sItems_valid D w (inner root n + 1) ts
    simp only [sMems, kw_type, type_array, SVal]
    refine and_congr_right fun _ => ?_
    simp only [mem, Keywords, ih]
    simp
  | .variant ts =>
    have ih := (sItems_one D w (inner root n + 1) ts d).1
    simp [sMems, mem, Keywords, ih, SVal]
  | .obj ms =>
    have ih := sProps_valid D w (inner root n + 1) ms d
    rw [SVal, sMems]
    cases h : ms.isNil
    · simp only [Bool.false_eq_true, ite_false, kw_type, type_object, forall_const]
      refine and_congr_right fun _ => ?_
      generalize JMems.propNames _ = ps
      rw [mem, Keywords, sClassEnd_valid]
      simp [ih]
    · simp [Keywords]
  | .ord ts =>
    have ih := sItems_valid D w (inner root n + 1) ts
    rw [SVal, sMems]
    cases h : ts.isNil
    · simp only [Bool.false_eq_true, ite_false, kw_type, type_array, forall_const]
      refine and_congr_right fun _ => ?_
      simp only [mem, Keywords, ih]
      simp
    · simp [Keywords]
theorem sItems_valid (D : Draft) (w : WCfg) (n : Nat) (ts : STys) (es : List JVal) :
    Positions D (sItems w n ts) es ↔ SPos D ts es := by
  match ts with
  | .nil => simp [sItems, Positions, SPos]
  | .cons t tl =>
    have ih := sMems_valid D w n false t
    have it := sItems_valid D w n tl es.tail
    simp [sItems, Positions, SPos, Valid, ih, it]
theorem sItems_one (D : Draft) (w : WCfg) (n : Nat) (ts : STys) (d : JVal) :
    (OneOf D (sItems w n ts) d ↔ SOne D ts d) ∧ (NoneOf D (sItems w n ts) d ↔ SNone D ts d) := by
  match ts with
  | .nil => simp [sItems, OneOf, NoneOf, SOne, SNone]
  | .cons t tl =>
    have ih := sMems_valid D w n false t d
    have it := sItems_one D w n tl d
    simp [sItems, OneOf, NoneOf, SOne, SNone, Valid, ih, it]
theorem sProps_valid (D : Draft) (w : WCfg) (n : Nat) (ms : SMems) (d : JVal) :
    Properties D (sProps w n ms) d ↔ SProp D ms d := by
  match ms with
  | .nil => simp [sProps, Properties, SProp]
  | .cons name dep t tl =>
    have ih := sMems_valid D w n false t
    have it := sProps_valid D w n tl d
    simp [sProps, mem, Properties, SProp, Valid, ih, it]
end

end Verif
