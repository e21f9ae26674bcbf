import Verif.Proof.ValueFind

/-!
# Paths
-/

namespace Verif

open Spec

variable {t : TCfg}

/-! ## The text of a path -/

/-- The text starts where a name ends: at a dot, at a bracket or at the end. -/
def NameEnd (r : Bytes) : Prop := r = [] ∨ ∃ c cs, r = c :: cs ∧ (c = chDot ∨ c = chLBrack)

theorem pathTail_end (ss : List Step) : NameEnd (pathTail ss) := by
  cases ss with
  | nil => exact Or.inl rfl
  | cons s ss => cases s <;> exact Or.inr ⟨_, _, rfl, by simp⟩

theorem escName_cons (c : UInt8) (n : Bytes) :
    escName (c :: n) = (if c = 0x2E ∨ c = 0x5B ∨ c = 0x5D then [0x5C, c] else [c]) ++ escName n := by
  simp [escName]

theorem popMember_name {n r : Bytes} (hn : chBslash ∉ n) (hr : NameEnd r) : popMember (escName n ++ r) = (escName n, r) := by
  induction n with
  | nil =>
    simp only [escName, List.flatMap_nil, List.nil_append]
    rcases hr with rfl | ⟨c, cs, rfl, hc⟩
    · rfl
    · have h1 : c ≠ chBslash := by rcases hc with rfl | rfl <;> decide
      unfold popMember
      rw [if_neg h1, if_pos hc]
  | cons c n ih =>
    simp only [List.mem_cons, not_or] at hn
    have ih := ih hn.2
    rw [escName_cons]
    by_cases h : c = 0x2E ∨ c = 0x5B ∨ c = 0x5D
    · rw [if_pos h]
      simp only [List.cons_append, List.nil_append]
      unfold popMember
      simp only [if_true, ih]
    · rw [if_neg h]
      simp only [List.cons_append, List.nil_append]
      unfold popMember
      simp only [not_or] at h
      rw [if_neg (fun hh => hn.1 hh.symm), if_neg (by simp [h])]
      simp only [ih]

theorem popPathItem_name {n r : Bytes} (hn : chBslash ∉ n) (hr : NameEnd r) : popPathItem (escName n ++ r) = (escName n, r) := by
  induction n with
  | nil =>
    simp only [escName, List.flatMap_nil, List.nil_append]
    rcases hr with rfl | ⟨c, cs, rfl, hc⟩
    · rfl
    · have h1 : c ≠ chBslash := by rcases hc with rfl | rfl <;> decide
      unfold popPathItem
      rw [if_neg h1, if_pos (by rcases hc with h | h <;> simp [h])]
  | cons c n ih =>
    simp only [List.mem_cons, not_or] at hn
    have ih := ih hn.2
    rw [escName_cons]
    by_cases h : c = 0x2E ∨ c = 0x5B ∨ c = 0x5D
    · rw [if_pos h]
      simp only [List.cons_append, List.nil_append]
      unfold popPathItem
      simp only [if_true, ih]
    · rw [if_neg h]
      simp only [List.cons_append, List.nil_append]
      unfold popPathItem
      rw [if_neg (fun hh => hn.1 hh.symm), if_neg h]
      simp only [ih]

theorem popBracket_digits {ds r : Bytes} (hd : ∀ c ∈ ds, IsDig c) : popBracket (ds ++ chRBrack :: r) = (ds, r) := by
  induction ds with
  | nil => simp [popBracket]
  | cons c cs ih =>
    have hc : c ≠ chRBrack := by
      rintro rfl
      have := hd chRBrack (by simp)
      revert this; unfold IsDig; decide
    simp only [List.cons_append]
    unfold popBracket
    rw [if_neg hc, ih (fun x hx => hd x (by simp [hx]))]

theorem escName_filter {n : Bytes} (hn : chBslash ∉ n) : (escName n).filter (fun c => c != chBslash) = n := by
  induction n with
  | nil => rfl
  | cons c n ih =>
    simp only [List.mem_cons, not_or] at hn
    have hc : ¬ c = 0x5C := fun h => hn.1 h.symm
    rw [escName_cons, List.filter_append, ih hn.2]
    split <;> simp [hc]

theorem escName_last {n : Bytes} (hn : chBslash ∉ n) : (escName n).getLast? ≠ some chBslash := by
  induction n with
  | nil => simp [escName]
  | cons c n ih =>
    simp only [List.mem_cons, not_or] at hn
    have hc : ¬ c = 0x5C := fun h => hn.1 h.symm
    rw [escName_cons, List.getLast?_append]
    cases h : (escName n).getLast? with
    | none => split <;> simp [hc]
    | some x =>
      have := ih hn.2
      rw [h] at this
      simpa using this

theorem escName_head {n : Bytes} (hne : n ≠ []) : ∃ c cs, escName n = c :: cs ∧ c ≠ chDot ∧ c ≠ chLBrack := by
  obtain ⟨c, n', rfl⟩ := List.exists_cons_of_ne_nil hne
  rw [escName_cons]
  split
  · exact ⟨_, _, rfl, by decide, by decide⟩
  · rename_i h
    simp only [not_or] at h
    exact ⟨_, _, rfl, h.1, h.2.1⟩

theorem dropDot_tail (ss : List Step) (h : ∀ s ∈ ss, s.Ok) : dropDot (pathTail ss) = pathText ss := by
  cases ss with
  | nil => rfl
  | cons s ss =>
    cases s with
    | name n => simp [dropDot, pathTail, headIs, pathText, Step.text]
    | index ds => simp [dropDot, pathTail, headIs, pathText, Step.text]

theorem dropDot_text (ss : List Step) (h : ∀ s ∈ ss, s.Ok) : dropDot (pathText ss) = pathText ss := by
  cases ss with
  | nil => rfl
  | cons s ss =>
    cases s with
    | name n =>
      have hok : (Step.name n).Ok := h _ (by simp)
      obtain ⟨c, cs, h1, h2, -⟩ := escName_head hok.1
      have : pathText (.name n :: ss) = c :: (cs ++ pathTail ss) := by simp [pathText, Step.text, h1]
      rw [this]
      simp [dropDot, headIs, h2]
    | index ds => simp [dropDot, pathText, Step.text, headIs]

/-! ## Following a path -/

/-- A value of no type stays as it is. -/
theorem jvFind_none {v : JV} (h : jvType t.cfg v = .ok .none) (p : Bytes) : jvFind t v p = .ok v := by
  unfold jvFind
  cases p with
  | nil => rfl
  | cons c cs => simp [h]

/-- The lookup for one component of a path. -/
def oneStep (t : TCfg) (v : JV) : Step → Res JV
  | .name n => findClassMember t v (escName n)
  | .index ds => findElement t v (decVal ds)

theorem pathText_name (n : Bytes) (ss : List Step) : pathText (.name n :: ss) = escName n ++ pathTail ss := rfl
theorem pathText_index (ds : Bytes) (ss : List Step) : pathText (.index ds :: ss) = 0x5B :: (ds ++ 0x5D :: pathTail ss) := by
  simp [pathText, Step.text]

/-- One component of a path. -/
theorem jvFind_step {tc : Bool} {d : JVal} (hd : d.WFt tc) (k : Bytes) (s : Step) (ss : List Step) (h : ∀ s' ∈ s :: ss, s'.Ok) :
    jvFind t (d.text ++ k) (pathText (s :: ss)) =
      oneStep t (d.text ++ k) s >>= fun jv => jvFind t jv (pathText ss) := by
  have hs := h s (by simp)
  have hss : ∀ s' ∈ ss, s'.Ok := fun s' h' => h s' (by simp [h'])
  have hk : d.kind ≠ .none := by cases d <;> simp [JVal.kind]
  cases s with
  | name n =>
    obtain ⟨c, cs, h1, h2, h3⟩ := escName_head hs.1
    have hpop := popMember_name hs.2 (pathTail_end ss)
    rw [pathText_name]
    have hlen : (dropDot (popMember (escName n ++ pathTail ss)).2).length < (escName n ++ pathTail ss).length := by
      rw [hpop]
      have := dropDot_length (pathTail ss)
      simp only [h1, List.length_append, List.length_cons]
      omega
    generalize hp : escName n ++ pathTail ss = p at *
    have hp' : ∃ c' cs', p = c' :: cs' ∧ c' = c := ⟨c, cs ++ pathTail ss, by rw [← hp, h1]; rfl, rfl⟩
    obtain ⟨c', cs', rfl, rfl⟩ := hp'
    conv => lhs; unfold jvFind
    simp only [jvType_text _ hd, Res.ok_bind, if_neg hk, if_neg h3, if_neg h2, dif_pos hlen]
    rw [hpop, dropDot_tail ss hss]
    rfl
  | index ds =>
    rw [pathText_index]
    conv => lhs; unfold jvFind
    have hpop := popBracket_digits (r := pathTail ss) hs.1.2
    simp only [jvType_text _ hd, Res.ok_bind, if_neg hk, if_true, hpop, unsignedKnown_digits 64 false ds hs.1,
      dropDot_tail ss hss, dropDot_text ss hss, Bool.false_eq_true, if_false]
    rw [Nat.mod_eq_of_lt (a := decVal ds % 2 ^ 64) (Nat.mod_lt _ (by decide)), Nat.mod_eq_of_lt hs.2]
    rfl

/-- One component found. -/
theorem step_found (hck : t.cfg.checked = true) {d e : JVal} (hd : DOk false d) (hn : d.NamesOk t.escNames) (k : Bytes) {s : Step}
    (hs : s.Ok) (h : d.step s = some e) :
    ∃ k', oneStep t (d.text ++ k) s = .ok (e.text ++ k') ∧ AfterValue k' ∧ k' ≠ [] := by
  cases s with
  | name n =>
    match d with
    | .null | .tru | .fls | .num _ | .str _ | .arr .. => simp [JVal.step] at h
    | .obj w ms =>
      refine (findClassMember_obj hck hd hn k (escName n) (escName_last hs.2)).2 e ?_
      rw [escName_filter hs.2]
      exact h
  | index ds =>
    simp only [JVal.step, Option.map_eq_some_iff] at h
    obtain ⟨⟨n, e'⟩, hp, rfl⟩ := h
    refine findElement_in hck ?_ hd hn k _ n _ hp
    cases d <;> simp_all [JVal.items, JVal.isContainer]

/-- A component that is not there, in the cases where the library says so. -/
def Missing (d : JVal) (s : Step) : Prop :=
  d.step s = none ∧ ∀ ds, s = .index ds → d.kind = .array ∨ (d.kind = .cls ∧ d.items.length < decVal ds)

theorem step_missing (hck : t.cfg.checked = true) {d : JVal} (hd : DOk false d) (hn : d.NamesOk t.escNames) (k : Bytes) {s : Step}
    (hs : s.Ok) (h : Missing d s) :
    ∃ v, oneStep t (d.text ++ k) s = .ok v ∧ jvType t.cfg v = .ok .none := by
  cases s with
  | name n =>
    refine ⟨[], ?_, rfl⟩
    match d with
    | .null | .tru | .fls | .num _ | .str _ | .arr .. => exact findClassMember_other t hd.wf (by simp [JVal.kind]) k _
    | .obj w ms =>
      refine (findClassMember_obj hck hd hn k (escName n) (escName_last hs.2)).1 ?_
      rw [escName_filter hs.2]
      exact h.1
  | index ds =>
    obtain ⟨h1, h2⟩ := h
    simp only [JVal.step, Option.map_eq_none_iff, List.getElem?_eq_none_iff] at h1
    rcases h2 ds rfl with hk | ⟨hk, hlt⟩
    · match d with
      | .null | .tru | .fls | .num _ | .str _ | .obj .. => simp [JVal.kind] at hk
      | .arr w es =>
        rcases Nat.lt_or_eq_of_le h1 with hlt | heq
        · exact ⟨[], findElement_past hck rfl hd hn k _ hlt, rfl⟩
        · obtain ⟨k', hk'⟩ := findElement_end hck hd hn k
          simp only [JVal.items, List.length_map] at heq
          rw [heq] at hk'
          exact ⟨_, hk', by simp [jvType, isDigit, parseDigit]⟩
    · refine ⟨[], findElement_past hck ?_ hd hn k _ hlt, rfl⟩
      cases d <;> simp_all [JVal.kind, JVal.isContainer]

/-- A path that leads to a value. -/
theorem jvFind_follow (hck : t.cfg.checked = true) (ss : List Step) (hss : ∀ s ∈ ss, s.Ok) {d e : JVal} (hd : DOk false d)
    (hn : d.NamesOk t.escNames) (k : Bytes) (hk : AfterValue k) (h : d.follow ss = some e) :
    ∃ k', jvFind t (d.text ++ k) (pathText ss) = .ok (e.text ++ k') ∧ AfterValue k' ∧ DOk false e ∧ (ss = [] ∨ k' ≠ []) := by
  induction ss generalizing d k with
  | nil =>
    simp only [JVal.follow, Option.some.injEq] at h
    subst h
    exact ⟨k, by simp [pathText, jvFind], hk, hd, Or.inl rfl⟩
  | cons s ss ih =>
    simp only [JVal.follow] at h
    cases hs : d.step s with
    | none => simp [hs] at h
    | some e' =>
      rw [hs] at h
      obtain ⟨k', h1, h2, h3⟩ := step_found hck hd hn k (hss s (by simp)) hs
      obtain ⟨hd', hn'⟩ := DOk_get hd hn hs
      rw [jvFind_step hd.wf k s ss hss, h1]
      obtain ⟨k'', h4, h5, h6, h7⟩ := ih (fun s' h' => hss s' (by simp [h'])) hd' hn' k' h2 h
      refine ⟨k'', h4, h5, h6, Or.inr ?_⟩
      rcases h7 with rfl | h7
      · simp only [pathText, jvFind, Res.ok.injEq] at h4
        simp only [JVal.follow, Option.some.injEq] at h
        subst h
        have := List.append_cancel_left h4
        exact this ▸ h3
      · exact h7

/-- A path that ends at a value without the next component. -/
theorem jvFind_missing (hck : t.cfg.checked = true) (pre : List Step) (s : Step) (post : List Step)
    (hss : ∀ s' ∈ pre ++ s :: post, s'.Ok) {d e : JVal} (hd : DOk false d) (hn : d.NamesOk t.escNames) (k : Bytes)
    (h : d.follow pre = some e) (hm : Missing e s) :
    ∃ v, jvFind t (d.text ++ k) (pathText (pre ++ s :: post)) = .ok v ∧ jvType t.cfg v = .ok .none := by
  induction pre generalizing d k with
  | nil =>
    simp only [JVal.follow, Option.some.injEq] at h
    subst h
    obtain ⟨v, h1, h2⟩ := step_missing hck hd hn k (hss s (by simp)) hm
    refine ⟨v, ?_, h2⟩
    rw [List.nil_append, jvFind_step hd.wf k s post hss, h1]
    exact jvFind_none h2 _
  | cons s' pre ih =>
    simp only [JVal.follow] at h
    cases hs : d.step s' with
    | none => simp [hs] at h
    | some e' =>
      rw [hs] at h
      obtain ⟨k', h1, h2, h3⟩ := step_found hck hd hn k (hss s' (by simp)) hs
      obtain ⟨hd', hn'⟩ := DOk_get hd hn hs
      rw [List.cons_append, jvFind_step hd.wf k s' (pre ++ s :: post) hss, h1]
      exact ih (fun s'' h' => hss s'' (List.mem_cons_of_mem _ h')) hd' hn' k' h

end Verif
