import Verif.Proof.DepTrip

/-!
# Members that depend on another member: which members are written
-/

namespace Verif

open Spec

/-- What is written is an object with the members that have a value, and what these need. -/
theorem dep_written {w : WCfg} {Δ : Env} (hΔ : Writable Δ) {ms : List DMember} {vs : List Val}
    (hc : Consistent Δ ValidUtf8 (Seven w.only7bit) ms vs) (hown : ∀ m ∈ ms, IsStrBody m.name)
    (hneed : ∀ m v d x, (m, v) ∈ ms.zip vs → Present m v → Needs ms vs m.ty d x → IsStrBody d.name) :
    ∃ ws jm, toJsonDep w Δ ms vs = .ok (JVal.obj ws jm).text ∧ (JVal.obj ws jm).WFt w.tc ∧ jm.names.Nodup ∧
      (∀ m v, (m, v) ∈ ms.zip vs → (m.name ∈ jm.names ↔ Present m v)) ∧
      (∀ m v, (m, v) ∈ ms.zip vs → jm.get? m.name ≠ some .null) ∧
      ∀ n, n ∈ jm.names ↔ (∃ m v, (m, v) ∈ ms.zip vs ∧ Present m v ∧ m.name = n) ∨
        ∃ m v d x, (m, v) ∈ ms.zip vs ∧ Present m v ∧ Needs ms vs m.ty d x ∧ d.name = n := by
  have hdep : ∀ m v, (m, v) ∈ ms.zip vs → Present m v → HasDep Δ ValidUtf8 (Seven w.only7bit) ms vs m.ty (planItem (m, v)).val := fun m v hm hp =>
    (present_value (hc.values m v hm) hp).1
  obtain ⟨tags, seen, hT, hTnd, -, hseen, hTof, hTin⟩ := planTags_ok (all := ms) (vals := vs) ms vs [] hc.length
    (fun m v hm hp d hd => depValue_ok (hdep m v hm hp) hd) (fun m v hm hv d hd => by
      rcases hc.visible m v hm hv with ⟨ty, h⟩ | ⟨i, h⟩ | h
      · rw [h] at hd; cases hd
      · rw [h] at hd; cases hd
      · exact h)
  have hM := planMembers_ok seen ms vs seen hc.length hc.names (fun _ _ => Iff.rfl)
  generalize hmems : ((ms.zip vs).filter (planKeep seen)).map planItem = mems at hM
  have hseen' : ∀ n, n ∈ seen ↔ n ∈ tags.map OutItem.name := fun n => by rw [hseen]; simp
  -- the items of the second pass
  have hMof : ∀ i ∈ mems, ∃ m v, (m, v) ∈ ms.zip vs ∧ Present m v ∧ m.name ∉ seen ∧ i = planItem (m, v) := by
    intro i hi
    rw [← hmems] at hi
    obtain ⟨⟨m, v⟩, hf, rfl⟩ := List.mem_map.1 hi
    obtain ⟨hz, hk⟩ := List.mem_filter.1 hf
    simp only [planKeep, Bool.and_eq_true, Bool.not_eq_true', contains_false] at hk
    refine ⟨m, v, hz, ?_, hk.1, rfl⟩
    by_cases hop : m.opt = false
    · exact Or.inl hop
    · right
      rintro rfl
      simp only [Bool.not_eq_false] at hop
      simp [hop, Val.isNone] at hk
  have hMin : ∀ m v, (m, v) ∈ ms.zip vs → Present m v → m.name ∉ seen → planItem (m, v) ∈ mems := by
    intro m v hm hp hs
    rw [← hmems]
    refine List.mem_map_of_mem (List.mem_filter.2 ⟨hm, ?_⟩)
    have : (m.opt && v.isNone) = false := by
      rcases hp with h | h
      · simp [h]
      · cases v <;> simp [Val.isNone] at h ⊢
    simp [planKeep, hs, this]
  have hMsub : (mems.map OutItem.name).Sublist (ms.map DMember.name) := by
    rw [← hmems, List.map_map]
    have h1 : ((ms.zip vs).filter (planKeep seen)).Sublist (ms.zip vs) := List.filter_sublist
    have h2 := h1.map (fun p => p.1.name)
    have h3 : (ms.zip vs).map (fun p => p.1.name) = ms.map DMember.name := by
      rw [show (fun p : DMember × Val => p.1.name) = DMember.name ∘ Prod.fst from rfl, ← List.map_map,
        List.map_fst_zip (by rw [hc.length])]
    rw [h3] at h2
    exact h2
  have hTneed : ∀ i ∈ tags, ∃ m v d x, (m, v) ∈ ms.zip vs ∧ Present m v ∧ Needs ms vs m.ty d x ∧ i = ⟨d.name, .plain d.ty, x⟩ := by
    intro i hi
    obtain ⟨m, v, d, x, h1, h2, h3, h4, h5⟩ := hTof i hi
    exact ⟨m, v, d, x, h1, h2, needs_of h3 h4, h5⟩
  have hnd : ((tags ++ mems).map OutItem.name).Nodup := by
    rw [List.map_append, List.nodup_append]
    refine ⟨hTnd, hMsub.nodup hc.names, ?_⟩
    rintro a ha b hb rfl
    obtain ⟨i, hi, rfl⟩ := List.mem_map.1 hb
    obtain ⟨m, v, -, -, hs, rfl⟩ := hMof i hi
    exact hs ((hseen' _).2 ha)
  -- every item is a value of its type
  have hItem : ∀ i ∈ tags ++ mems, HasDep Δ ValidUtf8 (Seven w.only7bit) ms vs i.ty i.val := by
    intro i hi
    rcases List.mem_append.1 hi with hi | hi
    · obtain ⟨m, v, d, x, h1, h2, h3, rfl⟩ := hTneed i hi
      exact needs_hasTy hc.names (hdep m v h1 h2) h3
    · obtain ⟨m, v, h1, h2, -, rfl⟩ := hMof i hi
      exact hdep m v h1 h2
  have hflat := fun i hi => writeDep_flat (w := w) hΔ.nodup i (hItem i hi) 1
  -- every member that is there is written, and so is what it needs
  have hPres : ∀ m v, (m, v) ∈ ms.zip vs → Present m v → planItem (m, v) ∈ tags ++ mems := by
    intro m v hm hp
    by_cases hs : m.name ∈ seen
    · obtain ⟨i, hi, hn⟩ := List.mem_map.1 ((hseen' _).1 hs)
      obtain ⟨m', v', d, x, h1, h2, h3, rfl⟩ := hTneed i hi
      obtain ⟨h4, h5, h6⟩ := hc.declared m' v' d x m v h1 h2 h3 hm hn.symm
      have : planItem (m, v) = ⟨d.name, .plain d.ty, x⟩ := by
        simp only [planItem, h4, h5, h6, Bool.false_eq_true, if_false]
        rw [← hn]
      rw [this]
      exact List.mem_append_left _ hi
    · exact List.mem_append_right _ (hMin m v hm hp hs)
  have hNeed : ∀ m v d x, (m, v) ∈ ms.zip vs → Present m v → Needs ms vs m.ty d x → (⟨d.name, .plain d.ty, x⟩ : OutItem) ∈ tags := by
    intro m v d x hm hp hn
    obtain ⟨i, hi, he⟩ := List.mem_map.1 ((hseen' _).1 (hTin m v d hm hp (dep_of_needs hn)))
    obtain ⟨m', v', d', x', h1, h2, h3, rfl⟩ := hTneed i hi
    obtain ⟨rfl, rfl⟩ := hc.agree m v m' v' d d' x x' hm h1 hp h2 hn h3 he.symm
    exact hi
  -- the object
  have hList : ∀ l : List OutItem, (∀ i ∈ l, HasTy Δ ValidUtf8 (Seven w.only7bit) i.flat.1 i.flat.2) →
      HasList Δ ValidUtf8 (Seven w.only7bit) ((l.map fun i => (⟨i.name, i.flat.1⟩ : Member)).map Member.ty) (l.map fun i => i.flat.2) := by
    intro l
    induction l with
    | nil => intro _; simp [HasList]
    | cons i l ih =>
      intro h
      simp only [List.map_cons, HasList]
      exact ⟨h i (by simp), ih fun j hj => h j (by simp [hj])⟩
  have hHL := hList (tags ++ mems) (fun i hi => (hflat i hi).2.1)
  obtain ⟨jm, hjm⟩ := layMembers_ok (w := w) 1 _ _ hHL
  have hMn : ((tags ++ mems).map fun i => (⟨i.name, i.flat.1⟩ : Member)).map Member.name = (tags ++ mems).map OutItem.name := by
    rw [List.map_map]; rfl
  obtain ⟨hnames, hget⟩ := layMembers_all 1 _ _ jm hjm (by simp) (by
    intro v hv
    obtain ⟨i, hi, rfl⟩ := List.mem_map.1 hv
    exact (hflat i hi).2.2)
  rw [hMn] at hnames hget
  have hGet : ∀ i ∈ tags ++ mems, ∃ d, jm.get? i.name = some d ∧ layVal w Δ 1 i.flat.1 i.flat.2 = .ok d ∧ d ≠ .null := by
    intro i hi
    have : ((⟨i.name, i.flat.1⟩ : Member), i.flat.2) ∈
        ((tags ++ mems).map fun i => (⟨i.name, i.flat.1⟩ : Member)).zip ((tags ++ mems).map fun i => i.flat.2) := by
      rw [List.zip_map']
      exact List.mem_map.2 ⟨i, hi, rfl⟩
    obtain ⟨d, h1, h2⟩ := hget hnd _ _ this
    exact ⟨d, h1, h2, layVal_ne_null 1 _ _ (hflat i hi).2.1 (hflat i hi).2.2 h2⟩
  have hwr : toJsonDep w Δ ms vs = .ok (JVal.obj (closing w 0 ms.isEmpty) jm).text := by
    have h1 := writeItems_flat (w := w) (Δ := Δ) 1 (tags ++ mems) true [] (fun i hi => ⟨(hflat i hi).1, (hflat i hi).2.2⟩) hnd (by simp)
    rw [writeMembers_text hΔ 1 [] true _ _ hHL (by rw [hMn]; exact hnd) (by simp), hjm] at h1
    simp only [Res.ok_bind, if_true] at h1
    simp only [toJsonDep, hT, hM, Res.ok_bind, h1, obj_text1]
  have hOwnOrNeed : ∀ n ∈ jm.names, (∃ m v, (m, v) ∈ ms.zip vs ∧ Present m v ∧ m.name = n) ∨ ∃ m v d x, (m, v) ∈ ms.zip vs ∧ Present m v ∧ Needs ms vs m.ty d x ∧ d.name = n := by
    intro n hn
    rw [hnames] at hn
    obtain ⟨i, hi, rfl⟩ := List.mem_map.1 hn
    rcases List.mem_append.1 hi with hi | hi
    · obtain ⟨m, v, d, x, h1, h2, h3, rfl⟩ := hTneed i hi
      exact Or.inr ⟨m, v, d, x, h1, h2, h3, rfl⟩
    · obtain ⟨m, v, h1, h2, -, rfl⟩ := hMof i hi
      exact Or.inl ⟨m, v, h1, h2, rfl⟩
  have hAbs : ∀ m v, (m, v) ∈ ms.zip vs → ¬ Present m v → m.name ∉ jm.names := by
    intro m v hm hp hn
    rw [hnames, List.map_append] at hn
    rcases List.mem_append.1 hn with hn | hn
    · obtain ⟨i, hi, hn⟩ := List.mem_map.1 hn
      obtain ⟨m', v', d, x, h1, h2, h3, rfl⟩ := hTneed i hi
      exact hp (Or.inl (hc.declared m' v' d x m v h1 h2 h3 hm hn.symm).1)
    · obtain ⟨i, hi, hn⟩ := List.mem_map.1 hn
      obtain ⟨m', v', h1, h2, -, rfl⟩ := hMof i hi
      obtain ⟨rfl, rfl⟩ := zip_unique hc.names h1 hm hn
      exact hp h2
  have hbody : ∀ m ∈ (tags ++ mems).map (fun i => (⟨i.name, i.flat.1⟩ : Member)), IsStrBody m.name := by
    intro m hm
    obtain ⟨i, hi, rfl⟩ := List.mem_map.1 hm
    rcases List.mem_append.1 hi with hi | hi
    · obtain ⟨m, v, d, x, h1, h2, h3, rfl⟩ := hTneed i hi
      exact hneed m v d x h1 h2 h3
    · obtain ⟨m, v, h1, h2, -, rfl⟩ := hMof i hi
      exact hown m (List.of_mem_zip h1).1
  have hIn : ∀ i ∈ tags ++ mems, i.name ∈ jm.names := fun i hi => by
    rw [hnames]
    exact List.mem_map_of_mem hi
  refine ⟨_, jm, hwr, ⟨closing_tail w 0 _, layMembers_wf hΔ 1 _ _ hHL hbody hjm⟩, by rw [hnames]; exact hnd, fun m v hm => ⟨fun hn => ?_, fun hp => ?_⟩,
    fun m v hm hn => ?_, fun n => ⟨hOwnOrNeed n, ?_⟩⟩
  · by_contra hp
    exact hAbs m v hm hp hn
  · exact hIn _ (hPres m v hm hp)
  · by_cases hp : Present m v
    · obtain ⟨d, h1, -, h2⟩ := hGet _ (hPres m v hm hp)
      change jm.get? m.name = some d at h1
      rw [hn] at h1
      exact h2 (by simpa using h1.symm)
    · rw [JMems_get?_none.2 (hAbs m v hm hp)] at hn
      cases hn
  · rintro (⟨m, v, h1, h2, rfl⟩ | ⟨m, v, d, x, h1, h2, h3, rfl⟩)
    · exact hIn _ (hPres m v h1 h2)
    · exact hIn _ (List.mem_append_left _ (hNeed m v d x h1 h2 h3))

end Verif
