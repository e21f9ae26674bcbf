import Verif.Proof.SchemaSem
import Verif.Proof.WriteReads
import Mathlib.Algebra.Order.Field.Basic
import Mathlib.Tactic.NormNum

/-!
# Schemas and parsing

The documents a type can be read from satisfy its schema, and the other way round.
-/

namespace Verif

open Spec

theorem sRoot_valid (D : Draft) (w : WCfg) (t : STy) (id title : Bytes) (d : JVal) :
    Valid D (sRoot w t id title) d ↔ SVal D t d := by
  rw [← sMems_valid D w 1 true t d, sRoot, Valid, propNames_eq]
  generalize JMems.propNames _ = ps
  simp [mem, Keywords]

/-! ## Names -/

theorem unesc_plain_eq {b s : Bytes} (hp : PlainName b) (h : Unesc b s) : s = b := by
  induction h with
  | nil => rfl
  | plain _ _ _ _ ih => rw [ih fun hm => hp (List.mem_cons_of_mem _ hm)]
  | esc => exact absurd (List.mem_cons_self ..) hp
  | uni => exact absurd (List.mem_cons_self ..) hp
  | pair => exact absurd (List.mem_cons_self ..) hp

theorem sameName_plain {a b : Bytes} (ha : PlainName a) (hb : PlainName b) (h : SameName a b) : a = b := by
  obtain ⟨s, h1, h2⟩ := h
  rw [← unesc_plain_eq ha h1, ← unesc_plain_eq hb h2]

theorem sameName_refl {a : Bytes} (hb : IsStrBody a) (ha : PlainName a) : SameName a a := by
  refine ⟨a, ?_, ?_⟩ <;>
  · induction hb with
    | nil => exact .nil
    | plain h1 h2 h3 _ ih => exact .plain h1 h2 h3 (ih fun hm => ha (List.mem_cons_of_mem _ hm))
    | esc => exact absurd (List.mem_cons_self ..) ha
    | uni => exact absurd (List.mem_cons_self ..) ha

theorem lookup_mem {l : List (Bytes × JVal)} {n : Bytes} {d : JVal} (h : l.lookup n = some d) : (n, d) ∈ l := by
  induction l with
  | nil => cases h
  | cons p l ih =>
    obtain ⟨k, x⟩ := p
    rw [List.lookup_cons] at h
    split at h
    · next hk =>
      cases h
      rw [beq_iff_eq] at hk
      rw [hk]
      exact List.mem_cons_self ..
    · exact List.mem_cons_of_mem _ (ih h)

theorem lookup_of_count {l : List (Bytes × JVal)} {n : Bytes} {d : JVal} (hm : (n, d) ∈ l)
    (hc : (l.map Prod.fst).count n ≤ 1) : l.lookup n = some d := by
  induction l with
  | nil => cases hm
  | cons p l ih =>
    obtain ⟨k, x⟩ := p
    rw [List.lookup_cons]
    rcases List.mem_cons.1 hm with h | h
    · cases h
      simp
    · by_cases hk : n = k
      · subst hk
        simp only [List.map_cons, List.count_cons_self] at hc
        have : n ∈ l.map Prod.fst := List.mem_map.2 ⟨_, h, rfl⟩
        have := List.count_pos_iff.2 this
        omega
      · have hb : (n == k) = false := by simpa using hk
        rw [hb]
        refine ih h ?_
        rw [List.map_cons] at hc
        exact Nat.le_trans (List.count_le_count_cons ..) hc

/-! ## The documents considered -/

theorem elems_noNull : (es : JElems) → es.noNull → ∀ e ∈ es.toList, e.noNull
  | .nil, _, _, he => by cases he
  | .cons _ v _ tl, h1, e, he => by
    rcases List.mem_cons.1 he with rfl | he
    · exact h1.1
    · exact elems_noNull tl h1.2 e he

theorem mems_noNull : (ms : JMems) → ms.noNull → ∀ p ∈ ms.toList, p.2.noNull
  | .nil, _, _, he => by cases he
  | .cons _ n _ _ v _ tl, h1, p, he => by
    rcases List.mem_cons.1 he with rfl | he
    · exact h1.1
    · exact mems_noNull tl h1.2 p he

/-! ## What can be read satisfies the schema -/

section
variable {Δ : Env} {nm : List Bytes → Bytes → Prop} {ea : Bool} {D : Draft}

/-- Documents of a type satisfy `s`. -/
def Sat (Δ : Env) (nm : List Bytes → Bytes → Prop) (ea : Bool) (D : Draft) (ty : Ty) (s : STy) : Prop :=
  s.Sound D → ∀ d v, d.noNull → Reads Δ nm ea ty d v → SVal D s d

theorem readsElems_mem {t : Ty} : {es : JElems} → {vs : List Val} → ReadsElems Δ nm ea t es vs →
    ∀ e ∈ es.toList, ∃ v, Reads Δ nm ea t e v
  | _, _, .nil, _, he => by cases he
  | _, _, .cons h tl, e, he => by
    rcases List.mem_cons.1 he with rfl | he
    · exact ⟨_, h⟩
    · exact readsElems_mem tl e he

theorem readsPairs_mem {t : Ty} : {ms : JMems} → {kvs : List (Bytes × Val)} → ReadsPairs Δ nm ea t ms kvs →
    ∀ p ∈ ms.toList, ∃ v, Reads Δ nm ea t p.2 v
  | _, _, .nil, _, he => by cases he
  | _, _, .cons _ h tl, e, he => by
    rcases List.mem_cons.1 he with rfl | he
    · exact ⟨_, h⟩
    · exact readsPairs_mem tl e he

theorem sPos_nil : (ts : STys) → SPos D ts []
  | .nil => by simp [SPos]
  | .cons t tl => by
    rw [SPos]
    exact ⟨fun e he => (by cases he), sPos_nil tl⟩

theorem isInt_ne {b : Bytes} (h : IsInt b) : b ≠ [] := by
  rcases h with h | h
  · rw [h]; exact List.cons_ne_nil _ _
  · exact h.1.1

theorem numDenotes_of_numeral {x : Bytes} {i : Int} (h : IsNumeral x i) : NumDenotes x (i : ℚ) := by
  rw [IsNumeral] at h
  split at h
  · obtain ⟨ds, rfl, hi, hv⟩ := h
    refine ⟨true, ds, [], [], [], 0, hi, Or.inl ⟨rfl, rfl⟩, Or.inl ⟨rfl, rfl⟩, by simp, ?_⟩
    have : (i : ℚ) = -((decVal ds : Nat) : ℚ) := by
      have : i = -(decVal ds : Int) := by omega
      rw [this]; simp
    simp [this]
  · refine ⟨false, x, [], [], [], 0, h.1, Or.inl ⟨rfl, rfl⟩, Or.inl ⟨rfl, rfl⟩, by simp, ?_⟩
    rw [← h.2]
    simp

theorem numDenotes_nonneg {x : Bytes} {i : Int} (h : IsNumeral x i) (h0 : 0 ≤ i) {q : ℚ} (hq : NumDenotes x q) : 0 ≤ q := by
  rw [IsNumeral, if_neg (by omega)] at h
  obtain ⟨neg, ii, f, fd, xx, e, hi, _, _, ht, hv⟩ := hq
  cases neg with
  | true =>
    exfalso
    simp only [ite_true, List.singleton_append] at ht
    rcases h.1 with h1 | h1
    · rw [h1] at ht
      cases ht
    · have := h1.1.2 0x2D (by rw [ht]; exact List.mem_cons_self ..)
      exact absurd this (by unfold IsDig; decide)
  | false =>
    rw [hv]
    simp only [Bool.false_eq_true, ite_false, one_mul]
    exact mul_nonneg (Nat.cast_nonneg _) (zpow_nonneg (by norm_num) _)

theorem sat_members {r : Ty → Option STy} (hr : ∀ ty s, r ty = some s → Sat Δ nm ea D ty s ∧ (ty.isOpt = true → s.isNull = true))
    {w : Bytes} {jm : JMems} (hpl : ∀ p ∈ jm.toList, PlainName p.1 ∧ p.2.noNull) :
    {ms : List Member} → {vs : List Val} → ReadsMembers Δ nm ea ms jm vs → (∀ m ∈ ms, PlainName m.name ∧ IsStrBody m.name) →
    (∀ m ∈ ms, jm.names.count m.name ≤ 1) → {sms : SMems} → schemaMems r ms = some sms → sms.Sound D →
    SProp D sms (.obj w jm) ∧ SReq sms (.obj w jm) ∧ SDep sms (.obj w jm)
  | [], _, .nil, _, _, sms, hs, _ => by
    cases hs
    simp [SProp, SReq, SDep]
  | m :: ms, vs, hm, hn, hc, sms, hs, hD => by
    simp only [schemaMems, Option.bind_eq_bind, Option.bind_eq_some_iff] at hs
    obtain ⟨t, ht, stl, hstl, hs⟩ := hs
    cases hs
    have hrt := hr _ _ ht
    have hmn := hn m (List.mem_cons_self ..)
    have hmc := hc m (List.mem_cons_self ..)
    have hrest : ∃ vs', ReadsMembers Δ nm ea ms jm vs' := by
      cases hm with
      | found _ _ h => exact ⟨_, h⟩
      | absent _ _ h => exact ⟨_, h⟩
    obtain ⟨vs', hrest⟩ := hrest
    have ih := sat_members hr (w := w) hpl hrest (fun x hx => hn x (List.mem_cons_of_mem _ hx))
      (fun x hx => hc x (List.mem_cons_of_mem _ hx)) hstl hD.2
    rw [SProp, SReq, SDep]
    refine ⟨⟨fun p hp hsn => ?_, ih.1⟩, ⟨fun h0 _ => ?_, ih.2.1⟩, ⟨fun dn h => (by cases h), ih.2.2⟩⟩
    · have hpp := hpl p hp
      have hpe := sameName_plain hmn.1 hpp.1 hsn
      have hl : jm.get? m.name = some p.2 := lookup_of_count (by rw [hpe]; exact hp) hmc
      cases hm with
      | found hg hd _ =>
        rw [hl] at hg
        cases hg
        exact hrt.1 hD.1 _ _ hpp.2 hd
      | absent hg _ _ =>
        rw [hl] at hg
        cases hg
    · cases hm with
      | found hg _ _ => exact ⟨_, lookup_mem hg, sameName_refl hmn.2 hmn.1⟩
      | absent _ ho _ =>
        rw [hrt.2 ho] at h0
        cases h0

theorem sat_tuple {r : Ty → Option STy} (hr : ∀ ty s, r ty = some s → Sat Δ nm ea D ty s) {exact_ : Bool} :
    {ts : List Ty} → {es : JElems} → {vs : List Val} → ReadsTuple Δ nm ea exact_ ts es vs → (∀ e ∈ es.toList, e.noNull) →
    {sts : STys} → schemaTys r ts = some sts → sts.Sound D → SPos D sts es.toList
  | [], _, _, _, _, sts, hs, _ => by
    cases hs
    simp [SPos]
  | ty :: ts, _, _, .cons hd htl, hpl, sts, hs, hD => by
    simp only [schemaTys, Option.bind_eq_bind, Option.bind_eq_some_iff] at hs
    obtain ⟨t, ht, stl, hstl, hs⟩ := hs
    cases hs
    rw [SPos]
    refine ⟨fun e he => ?_, sat_tuple hr htl (fun e he => hpl e (List.mem_cons_of_mem _ he)) hstl hD.2⟩
    cases he
    exact hr _ _ ht hD.1 _ _ (hpl _ (List.mem_cons_self ..)) hd

theorem sat_ordered {r : Ty → Option STy} (hr : ∀ ty s, r ty = some s → Sat Δ nm ea D ty s) {exact_ : Bool} :
    {idx : Nat} → {ms : List (Option Nat × Ty)} → {es : JElems} → {vs : List Val} →
    ReadsOrdered Δ nm ea exact_ idx ms es vs → (∀ e ∈ es.toList, e.noNull) →
    {sts : STys} → schemaOrd r ms = some sts → sts.Sound D → SPos D sts es.toList
  | _, [], _, _, _, _, sts, hs, _ => by
    cases hs
    simp [SPos]
  | _, (some _, _) :: _, _, _, _, _, _, hs, _ => by
    simp [schemaOrd] at hs
  | _, (none, ty) :: ms, .nil, _, _, _, _, _, _ => sPos_nil _
  | _, (none, ty) :: ms, .cons pre d post tl, _, h, hpl, sts, hs, hD => by
    cases h with
    | read _ hd htl =>
      simp only [schemaOrd, Option.bind_eq_bind, Option.bind_eq_some_iff, Option.isSome_none, Bool.false_eq_true,
        ite_false] at hs
      obtain ⟨t, ht, stl, hstl, hs⟩ := hs
      cases hs
      rw [SPos]
      refine ⟨fun e he => ?_, sat_ordered hr htl (fun e he => hpl e (List.mem_cons_of_mem _ he)) hstl hD.2⟩
      cases he
      exact hr _ _ ht hD.1 _ _ (hpl _ (List.mem_cons_self ..)) hd

theorem sat_with {r : Nat → Option STy} (hr : ∀ i s, r i = some s → Sat Δ nm ea D (.ref i) s) :
    (ty : Ty) → (s : STy) → schemaTyWith r ty = some s → Sat Δ nm ea D ty s ∧ (ty.isOpt = true → s.isNull = true)
  | .bool, s, hs => by
    cases hs
    refine ⟨fun _ d v _ h => ?_, fun h => (by cases h)⟩
    cases h <;> simp [SVal]
  | .int t rc, s, hs => by
    simp only [schemaTyWith, Option.some.injEq] at hs
    subst hs
    refine ⟨fun _ d v _ h => ?_, fun h => (by cases h)⟩
    cases h with
    | int hv hrg hn =>
      cases hsg : t.signed
      · simp only [Bool.false_eq_true, ite_false, SVal]
        refine ⟨⟨_, _, rfl, numDenotes_of_numeral hn⟩, fun x q hx hq => ?_⟩
        cases hx
        refine numDenotes_nonneg hn ?_ hq
        simp only [IntTy.InRange, hsg] at hrg
        exact hrg.1
      · simp only [ite_true, SVal]
        exact ⟨_, _, rfl, numDenotes_of_numeral hn⟩
  | .str ah, s, hs => by
    cases hs
    refine ⟨fun _ d v _ h => ?_, fun h => (by cases h)⟩
    cases h
    simp [SVal]
  | .txt k, s, hs => by
    have hk : ∀ k, schemaTxt k = some s → (∀ d v, ReadsTxt k d v → SVal D s d) := by
      intro k hk d v h
      cases h <;> simp [schemaTxt] at hk
      · subst hk; simp [SVal]
      · subst hk; simp [SVal]
      · subst hk; simp [SVal]
      · subst hk; simp [SVal]
    refine ⟨fun _ d v _ h => ?_, fun h => (by cases h)⟩
    cases h with
    | txt h => exact hk k hs _ _ h
  | .opt ty, s, hs => by
    simp only [schemaTyWith, Option.map_eq_some_iff] at hs
    obtain ⟨t, ht, rfl⟩ := hs
    refine ⟨fun hD d v hp h => ?_, fun _ => rfl⟩
    rw [SVal]
    cases h with
    | null => exact absurd hp id
    | some _ h => exact (sat_with hr ty t ht).1 hD _ _ hp h
  | .arr ty, s, hs => by
    simp only [schemaTyWith, Option.map_eq_some_iff] at hs
    obtain ⟨t, ht, rfl⟩ := hs
    refine ⟨fun hD d v hp h => ?_, fun h => (by cases h)⟩
    rw [SVal]
    cases h with
    | arr _ h =>
      refine ⟨⟨_, _, rfl⟩, fun e he => ?_⟩
      obtain ⟨v, hv⟩ := readsElems_mem h e he
      exact (sat_with hr ty t ht).1 hD _ _ (elems_noNull _ hp e he) hv
  | .map ty, s, hs => by
    simp only [schemaTyWith, Option.map_eq_some_iff] at hs
    obtain ⟨t, ht, rfl⟩ := hs
    refine ⟨fun hD d v hp h => ?_, fun h => (by cases h)⟩
    rw [SVal]
    cases h with
    | map _ h =>
      refine ⟨⟨_, _, rfl⟩, fun e he => ?_⟩
      obtain ⟨v, hv⟩ := readsPairs_mem h e he
      exact (sat_with hr ty t ht).1 hD _ _ (mems_noNull _ hp e he) hv
  | .ref i, s, hs => ⟨hr i s hs, fun h => (by cases h)⟩

theorem sat_ref (hnm : ∀ N n, nm N n → PlainName n)
    (hn : ∀ i ms ex, Δ i = .obj ms ex → ∀ m ∈ ms, PlainName m.name ∧ IsStrBody m.name) :
    (f i : Nat) → (s : STy) → schemaRef Δ f i = some s → Sat Δ nm ea D (.ref i) s
  | 0, _, _, hs => by cases hs
  | f + 1, i, s, hs => by
    have ih := sat_with (sat_ref hnm hn f)
    intro hD d v hp h
    rw [schemaRef] at hs
    cases h with
    | obj hi hu hc _ hm =>
      rw [hi] at hs
      simp only [Option.map_eq_some_iff] at hs
      obtain ⟨sms, hsm, rfl⟩ := hs
      rw [SVal]
      intro _
      have := sat_members ih (w := ‹_›) (fun p h => ⟨hnm _ _ (hu _ (List.mem_map_of_mem h)), mems_noNull _ hp p h⟩) hm (hn i _ _ hi) hc hsm hD.2
      exact ⟨⟨_, _, rfl⟩, this.1, this.2.1, fun _ => this.2.2⟩
    | tup hi hm =>
      rw [hi] at hs
      simp only [Option.map_eq_some_iff] at hs
      obtain ⟨sms, hsm, rfl⟩ := hs
      rw [SVal]
      exact ⟨⟨_, _, rfl⟩, hD.1, sat_tuple (fun ty s h => (ih ty s h).1) hm (elems_noNull _ hp) hsm hD.2.2⟩
    | ord hi _ _ hm =>
      rw [hi] at hs
      simp only [Option.map_eq_some_iff] at hs
      obtain ⟨sms, hsm, rfl⟩ := hs
      rw [SVal]
      intro h0
      exact ⟨⟨_, _, rfl⟩, hD.1 h0, sat_ordered (fun ty s h => (ih ty s h).1) hm (elems_noNull _ hp) hsm hD.2⟩
    | var hi => rw [hi] at hs; cases hs
    | ivar hi => rw [hi] at hs; cases hs

/-! ## What satisfies the schema can be read -/

theorem elems_wf : (es : JElems) → es.WFt false → ∀ e ∈ es.toList, e.WF
  | .nil, _, _, he => by cases he
  | .cons _ v _ tl, h1, e, he => by
    rcases List.mem_cons.1 he with rfl | he
    · exact h1.2.1
    · exact elems_wf tl h1.2.2.2 e he

theorem mems_wf : (ms : JMems) → ms.WFt false → ∀ p ∈ ms.toList, p.2.WF
  | .nil, _, _, he => by cases he
  | .cons _ n _ _ v _ tl, h1, p, he => by
    rcases List.mem_cons.1 he with rfl | he
    · exact h1.2.2.2.2.1
    · exact mems_wf tl h1.2.2.2.2.2.2 p he

theorem ws_of_tail {w : Bytes} (h : IsTail false w) : IsWs w := by
  rcases h with h | h
  · exact h
  · cases h.1

/-- Documents that satisfy `s` are of the type. -/
def Sur (Δ : Env) (nm : List Bytes → Bytes → Prop) (ea : Bool) (D : Draft) (F : Ty → JVal → Prop) (ty : Ty) (s : STy) : Prop :=
  ∀ d, d.WF → F ty d → SVal D s d → ∃ v, Reads Δ nm ea ty d v

theorem readsElems_of {t : Ty} : (es : JElems) → (∀ e ∈ es.toList, ∃ v, Reads Δ nm ea t e v) →
    ∃ vs, ReadsElems Δ nm ea t es vs
  | .nil, _ => ⟨_, .nil⟩
  | .cons _ d _ tl, h => by
    obtain ⟨v, hv⟩ := h d (List.mem_cons_self ..)
    obtain ⟨vs, hvs⟩ := readsElems_of tl fun e he => h e (List.mem_cons_of_mem _ he)
    exact ⟨_, .cons hv hvs⟩

theorem readsPairs_of {t : Ty} : (ms : JMems) → (∀ p ∈ ms.toList, (∃ s, Unesc p.1 s) ∧ ∃ v, Reads Δ nm ea t p.2 v) →
    ∃ kvs, ReadsPairs Δ nm ea t ms kvs
  | .nil, _ => ⟨_, .nil⟩
  | .cons _ n _ _ d _ tl, h => by
    obtain ⟨⟨k, hk⟩, v, hv⟩ := h (n, d) (List.mem_cons_self ..)
    obtain ⟨vs, hvs⟩ := readsPairs_of tl fun e he => h e (List.mem_cons_of_mem _ he)
    exact ⟨_, .cons hk hv hvs⟩

variable {F : Ty → JVal → Prop}

theorem sur_members {r : Ty → Option STy}
    (hr : ∀ ty s, r ty = some s → Sur Δ nm ea D F ty s ∧ (s.isNull = true → ty.isOpt = true))
    {w : Bytes} {jm : JMems} (hpl : ∀ p ∈ jm.toList, PlainName p.1 ∧ p.2.WF) : (ms : List Member) →
    (∀ m ∈ ms, PlainName m.name ∧ IsStrBody m.name) → (∀ m ∈ ms, ∀ e, jm.get? m.name = some e → F m.ty e) → (sms : SMems) →
    schemaMems r ms = some sms → SProp D sms (.obj w jm) → SReq sms (.obj w jm) → ∃ vs, ReadsMembers Δ nm ea ms jm vs
  | [], _, _, _, _, _, _ => ⟨_, .nil⟩
  | m :: ms, hn, hF, sms, hs, hp, hq => by
    simp only [schemaMems, Option.bind_eq_bind, Option.bind_eq_some_iff] at hs
    obtain ⟨t, ht, stl, hstl, hs⟩ := hs
    cases hs
    have hrt := hr _ _ ht
    rw [SProp] at hp
    rw [SReq] at hq
    have hmn := hn m (List.mem_cons_self ..)
    obtain ⟨vs, ih⟩ := sur_members hr hpl ms (fun x hx => hn x (List.mem_cons_of_mem _ hx))
      (fun x hx => hF x (List.mem_cons_of_mem _ hx)) stl hstl hp.2 hq.2
    cases hg : jm.get? m.name with
    | none =>
      refine ⟨_, .absent hg ?_ ih⟩
      cases hnull : t.isNull
      · obtain ⟨p, hpm, hsn⟩ := hq.1 hnull ⟨_, _, rfl⟩
        exfalso
        have hpe := sameName_plain hmn.1 (hpl p hpm).1 hsn
        have : ∀ l : List (Bytes × JVal), p ∈ l → l.lookup p.1 ≠ none := by
          intro l hl h
          rw [List.lookup_eq_none_iff] at h
          simpa using h p hl
        exact this _ hpm (hpe ▸ hg)
      · exact hrt.2 hnull
    | some e =>
      have hm := lookup_mem hg
      obtain ⟨v, hv⟩ := hrt.1 e (hpl _ hm).2 (hF m (List.mem_cons_self ..) e hg)
        (hp.1 _ hm (sameName_refl hmn.2 hmn.1))
      exact ⟨_, .found hg hv ih⟩

theorem sur_tuple {r : Ty → Option STy} (hr : ∀ ty s, r ty = some s → Sur Δ nm ea D F ty s) {exact_ : Bool} :
    (ts : List Ty) → (es : JElems) → (∀ e ∈ es.toList, e.WF) → FitList F ts es.toList →
    (sts : STys) → schemaTys r ts = some sts → SPos D sts es.toList → ∃ vs, ReadsTuple Δ nm ea exact_ ts es vs
  | [], .nil, _, _, _, _, _ => ⟨_, .nil (fun _ => rfl) (by simp)⟩
  | [], .cons _ _ _ _, _, hf, _, _, _ => (hf : False).elim
  | _ :: _, .nil, _, hf, _, _, _ => (hf : False).elim
  | ty :: ts, .cons _ d _ tl, hpl, hf, sts, hs, hp => by
    simp only [schemaTys, Option.bind_eq_bind, Option.bind_eq_some_iff] at hs
    obtain ⟨t, ht, stl, hstl, hs⟩ := hs
    cases hs
    rw [SPos] at hp
    obtain ⟨vs, ih⟩ := sur_tuple hr ts tl (fun e he => hpl e (List.mem_cons_of_mem _ he)) hf.2 stl hstl hp.2
    obtain ⟨v, hv⟩ := hr _ _ ht d (hpl d (List.mem_cons_self ..)) hf.1 (hp.1 d rfl)
    exact ⟨_, .cons hv ih⟩

theorem sur_ordered {r : Ty → Option STy} (hr : ∀ ty s, r ty = some s → Sur Δ nm ea D F ty s) {exact_ : Bool} :
    (idx : Nat) → (ms : List (Option Nat × Ty)) → (es : JElems) → (∀ e ∈ es.toList, e.WF) →
    FitList F (ms.map Prod.snd) es.toList →
    (sts : STys) → schemaOrd r ms = some sts → SPos D sts es.toList → ∃ vs, ReadsOrdered Δ nm ea exact_ idx ms es vs
  | _, [], .nil, _, _, _, _, _ => ⟨_, .nil fun _ => rfl⟩
  | _, [], .cons _ _ _ _, _, hf, _, _, _ => (hf : False).elim
  | _, _ :: _, .nil, _, hf, _, _, _ => (hf : False).elim
  | _, (some _, _) :: _, .cons _ _ _ _, _, _, _, hs, _ => by simp [schemaOrd] at hs
  | idx, (none, ty) :: ms, .cons _ d _ tl, hpl, hf, sts, hs, hp => by
    simp only [schemaOrd, Option.bind_eq_bind, Option.bind_eq_some_iff, Option.isSome_none, Bool.false_eq_true,
      ite_false] at hs
    obtain ⟨t, ht, stl, hstl, hs⟩ := hs
    cases hs
    rw [SPos] at hp
    obtain ⟨vs, ih⟩ := sur_ordered hr (idx + 1) ms tl (fun e he => hpl e (List.mem_cons_of_mem _ he)) hf.2 stl hstl hp.2
    obtain ⟨v, hv⟩ := hr _ _ ht d (hpl d (List.mem_cons_self ..)) hf.1 (hp.1 d rfl)
    exact ⟨_, .read (Or.inl rfl) hv ih⟩

theorem sur_with {R : Nat → JVal → Prop} {r : Nat → Option STy}
    (hr : ∀ i s, r i = some s → Sur Δ nm ea D (FitWith R) (.ref i) s ∧ s.isNull = false) :
    (ty : Ty) → (s : STy) → schemaTyWith r ty = some s →
    Sur Δ nm ea D (FitWith R) ty s ∧ (s.isNull = true → ty.isOpt = true)
  | .bool, s, hs => by
    cases hs
    refine ⟨fun d _ _ h => ?_, fun h => (by cases h)⟩
    rw [SVal] at h
    rcases h with rfl | rfl
    · exact ⟨_, .tru⟩
    · exact ⟨_, .fls⟩
  | .int t rc, s, hs => by
    simp only [schemaTyWith, Option.some.injEq] at hs
    subst hs
    refine ⟨fun d _ hf h => ?_, fun h => (by split at h <;> cases h)⟩
    have : ∃ x, d = .num x := by
      split at h
      · rw [SVal] at h
        obtain ⟨x, _, hx, _⟩ := h
        exact ⟨x, hx⟩
      · rw [SVal] at h
        obtain ⟨⟨x, _, hx, _⟩, _⟩ := h
        exact ⟨x, hx⟩
    obtain ⟨x, rfl⟩ := this
    obtain ⟨hv, i, hi, hir⟩ := hf
    exact ⟨_, .int hv hir hi⟩
  | .str ah, s, hs => by
    cases hs
    refine ⟨fun d _ hf h => ?_, fun h => (by cases h)⟩
    rw [SVal] at h
    obtain ⟨b, rfl⟩ := h
    obtain ⟨s, hs⟩ := hf
    exact ⟨_, .str hs⟩
  | .txt k, s, hs => by
    have hk : (s = .string ∨ s = .date) ∨ s = .real ∧ ∃ dbl fmt, k = .real dbl fmt := by
      simp only [schemaTyWith] at hs
      cases k with
      | rawStr => cases hs; exact Or.inl (Or.inl rfl)
      | date => cases hs; exact Or.inl (Or.inr rfl)
      | custom c => cases c <;> cases hs; exact Or.inl (Or.inl rfl)
      | raw => cases hs
      | real => cases hs; exact Or.inr ⟨rfl, _, _, rfl⟩
      | quoted => cases hs
    refine ⟨fun d _ hf h => ?_, fun h => ?_⟩
    · rcases hk with hk | ⟨rfl, dbl, fmt, rfl⟩
      · have : ∃ b, d = .str b := by
          rcases hk with rfl | rfl <;> rw [SVal] at h <;> exact h
        obtain ⟨b, rfl⟩ := this
        obtain ⟨v, hv⟩ := hf
        exact ⟨_, .txt hv⟩
      · rw [SVal] at h
        obtain ⟨x, rfl⟩ := h
        obtain ⟨v, hv⟩ := hf
        exact ⟨_, .txt hv⟩
    · rcases hk with (rfl | rfl) | ⟨rfl, -⟩ <;> cases h
  | .opt ty, s, hs => by
    simp only [schemaTyWith, Option.map_eq_some_iff] at hs
    obtain ⟨t, ht, rfl⟩ := hs
    refine ⟨fun d hn hf h => ?_, fun _ => rfl⟩
    rw [SVal] at h
    by_cases hd : d = .null
    · subst hd
      exact ⟨_, .null⟩
    · obtain ⟨v, hv⟩ := (sur_with hr ty t ht).1 d hn (by cases d <;> exact hf) h
      exact ⟨_, .some hd hv⟩
  | .arr ty, s, hs => by
    simp only [schemaTyWith, Option.map_eq_some_iff] at hs
    obtain ⟨t, ht, rfl⟩ := hs
    refine ⟨fun d hn hf h => ?_, fun h => (by cases h)⟩
    rw [SVal] at h
    obtain ⟨⟨w, es, rfl⟩, h⟩ := h
    obtain ⟨vs, hvs⟩ := readsElems_of (Δ := Δ) (nm := nm) (ea := ea) (t := ty) es fun e he =>
      (sur_with hr ty t ht).1 e (elems_wf es hn.2 e he) (hf e he) (h e he)
    exact ⟨_, .arr (fun _ => ws_of_tail hn.1) hvs⟩
  | .map ty, s, hs => by
    simp only [schemaTyWith, Option.map_eq_some_iff] at hs
    obtain ⟨t, ht, rfl⟩ := hs
    refine ⟨fun d hn hf h => ?_, fun h => (by cases h)⟩
    rw [SVal] at h
    obtain ⟨⟨w, ms, rfl⟩, h⟩ := h
    obtain ⟨vs, hvs⟩ := readsPairs_of (Δ := Δ) (nm := nm) (ea := ea) (t := ty) ms fun p hp =>
      ⟨(hf p hp).1, (sur_with hr ty t ht).1 p.2 (mems_wf ms hn.2 p hp) (hf p hp).2 (h p hp)⟩
    exact ⟨_, .map (fun _ => ws_of_tail hn.1) hvs⟩
  | .ref i, s, hs => ⟨(hr i s hs).1, fun h => (by rw [(hr i s hs).2] at h; cases h)⟩

theorem sur_ref (hnm : ∀ N n, nm N n → PlainName n)
    (hn : ∀ i ms ex, Δ i = .obj ms ex → ∀ m ∈ ms, PlainName m.name ∧ IsStrBody m.name) :
    (f i : Nat) → (s : STy) → schemaRef Δ f i = some s →
    Sur Δ nm ea D (FitWith (FitRef Δ nm ea f)) (.ref i) s ∧ s.isNull = false
  | 0, _, _, hs => by cases hs
  | f + 1, i, s, hs => by
    have ih := sur_with (sur_ref hnm hn f)
    rw [schemaRef] at hs
    split at hs
    · next ms ex hi =>
      simp only [Option.map_eq_some_iff] at hs
      obtain ⟨sms, hsm, rfl⟩ := hs
      refine ⟨fun d hd hf h => ?_, rfl⟩
      replace hf : FitRef Δ nm ea (f + 1) i d := by cases d <;> exact hf
      rw [FitRef, hi] at hf
      obtain ⟨hf0, hf⟩ := hf
      rw [SVal] at h
      have hobj : ∃ w jm, d = .obj w jm := by
        cases ms with
        | nil => exact hf0 rfl
        | cons m ms =>
          simp only [schemaMems, Option.bind_eq_bind, Option.bind_eq_some_iff] at hsm
          obtain ⟨t, ht, stl, hstl, hsm⟩ := hsm
          cases hsm
          exact (h rfl).1
      obtain ⟨w, jm, rfl⟩ := hobj
      obtain ⟨h1, h2, h3, h4⟩ := hf w jm rfl
      have hpq : SProp D sms (.obj w jm) ∧ SReq sms (.obj w jm) := by
        cases hnil : sms.isNil
        · exact ⟨(h hnil).2.1, (h hnil).2.2.1⟩
        · cases sms with
          | nil => simp [SProp, SReq]
          | cons => cases hnil
      obtain ⟨vs, hvs⟩ := sur_members ih (w := w) (fun p h => ⟨hnm _ _ (h1 _ (List.mem_map_of_mem h)), mems_wf jm hd.2 p h⟩) ms (hn i ms ex hi) h4 sms hsm hpq.1 hpq.2
      exact ⟨_, .obj hi h1 h2 h3 hvs⟩
    · next ts ex hi =>
      simp only [Option.map_eq_some_iff] at hs
      obtain ⟨sts, hst, rfl⟩ := hs
      refine ⟨fun d hd hf h => ?_, rfl⟩
      replace hf : FitRef Δ nm ea (f + 1) i d := by cases d <;> exact hf
      rw [FitRef, hi] at hf
      rw [SVal] at h
      obtain ⟨⟨w, es, rfl⟩, _, h⟩ := h
      obtain ⟨vs, hvs⟩ := sur_tuple (fun ty s h => (ih ty s h).1) ts es (elems_wf es hd.2) (hf w es rfl) sts hst h
      exact ⟨_, .tup hi hvs⟩
    · next ms ex hi =>
      simp only [Option.map_eq_some_iff] at hs
      obtain ⟨sts, hst, rfl⟩ := hs
      refine ⟨fun d hd hf h => ?_, rfl⟩
      replace hf : FitRef Δ nm ea (f + 1) i d := by cases d <;> exact hf
      rw [FitRef, hi] at hf
      obtain ⟨hf0, hf⟩ := hf
      rw [SVal] at h
      have hpos : (∃ w es, d = .arr w es) ∧ SPos D sts d.elems := by
        cases hnil : sts.isNil
        · exact ⟨(h hnil).1, (h hnil).2.2⟩
        · cases sts with
          | nil =>
            refine ⟨?_, by simp [SPos]⟩
            cases ms with
            | nil => exact hf0 rfl
            | cons m ms =>
              obtain ⟨_ | want, ty⟩ := m
              · simp only [schemaOrd, Option.bind_eq_bind, Option.bind_eq_some_iff, Option.isSome_none, Bool.false_eq_true,
                  ite_false] at hst
                obtain ⟨t, ht, stl, hstl, hst⟩ := hst
                cases hst
              · simp [schemaOrd] at hst
          | cons => cases hnil
      obtain ⟨⟨w, es, rfl⟩, hp⟩ := hpos
      obtain ⟨vs, hvs⟩ := sur_ordered (exact_ := ex || ea) (fun ty s h => (ih ty s h).1) 0 ms es
        (elems_wf es hd.2) (hf w es rfl) sts hst hp
      refine ⟨_, .ord hi (fun h0 => ?_) (fun _ => ws_of_tail hd.1) hvs⟩
      subst h0
      cases es with
      | nil => rfl
      | cons => exact (hf w _ rfl : False).elim
    · cases hs
    · cases hs

end

end Verif
