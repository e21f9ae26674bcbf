import Verif.Proof.DepWrite

/-!
# Members that depend on another member: what is written reads back
-/

namespace Verif

open Spec

theorem zip_unique {ms : List DMember} {vs : List Val} (hnd : (ms.map DMember.name).Nodup) {m m' : DMember} {v v' : Val}
    (h : (m, v) ∈ ms.zip vs) (h' : (m', v') ∈ ms.zip vs) (hn : m.name = m'.name) : m = m' ∧ v = v' := by
  induction ms generalizing vs with
  | nil => simp at h
  | cons a ms ih =>
    cases vs with
    | nil => simp at h
    | cons b vs =>
      simp only [List.map_cons, List.nodup_cons] at hnd
      simp only [List.zip_cons_cons, List.mem_cons, Prod.mk.injEq] at h h'
      rcases h with ⟨rfl, rfl⟩ | h
      · rcases h' with ⟨rfl, rfl⟩ | h'
        · exact ⟨rfl, rfl⟩
        · exact absurd (hn ▸ List.mem_map_of_mem (List.of_mem_zip h').1) hnd.1
      · rcases h' with ⟨rfl, rfl⟩ | h'
        · exact absurd (hn ▸ List.mem_map_of_mem (List.of_mem_zip h).1) hnd.1
        · exact ih hnd.2 h h'

theorem mem_zip_get {ms : List DMember} {vs : List Val} {p : Nat} {m : DMember} (hl : ms.length = vs.length) (h : ms[p]? = some m) :
    ∃ v, vs[p]? = some v ∧ (m, v) ∈ ms.zip vs := by
  obtain ⟨hp, rfl⟩ := List.getElem?_eq_some_iff.1 h
  refine ⟨vs[p], List.getElem?_eq_getElem (by omega), ?_⟩
  have : (ms.zip vs)[p]? = some (ms[p], vs[p]) := by simp [hp, hl ▸ hp]
  exact List.mem_of_getElem? this

theorem declared_mem {n : Bytes} {x : Val} : ∀ {ms : List DMember} {vs : List Val}, declared n ms vs = some x → ∃ m, (m, x) ∈ ms.zip vs ∧ m.name = n
  | [], _, h => by simp [declared] at h
  | _ :: _, [], h => by simp [declared] at h
  | m :: ms, v :: vs, h => by
    unfold declared at h
    split at h
    · rename_i hn
      simp only [Option.some.injEq] at h
      exact ⟨m, by simp [h], hn⟩
    · obtain ⟨m', h1, h2⟩ := declared_mem h
      exact ⟨m', by simp [h1], h2⟩

theorem declared_ok {n : Bytes} : ∀ {ms : List DMember} {vs : List Val} {m : DMember} {x : Val}, (m, x) ∈ ms.zip vs → m.name = n →
    ∃ y, declared n ms vs = some y
  | [], _, _, _, h, _ => by simp at h
  | _ :: _, [], _, _, h, _ => by simp at h
  | a :: ms, v :: vs, m, x, h, hn => by
    unfold declared
    split
    · exact ⟨v, rfl⟩
    · rename_i hne
      simp only [List.zip_cons_cons, List.mem_cons, Prod.mk.injEq] at h
      rcases h with ⟨rfl, rfl⟩ | h
      · exact absurd hn hne
      · exact declared_ok h hn

theorem needs_of {ms : List DMember} {vs : List Val} {T : DTy} {d : Member} {x : Val} (hd : T.dep = some d) (hx : depValue ms vs T = some x) :
    Needs ms vs T d x := by
  cases T with
  | plain => simp [DTy.dep] at hd
  | pairs => simp [DTy.dep] at hd
  | tagged tag sw wr alts =>
    simp only [DTy.dep, Option.some.injEq, depValue] at hd hx
    exact ⟨hd.symm, hx.symm⟩
  | sized size elem =>
    simp only [DTy.dep, Option.some.injEq, depValue] at hd hx
    exact ⟨hd.symm, declared_mem hx⟩

theorem dep_of_needs {ms : List DMember} {vs : List Val} {T : DTy} {d : Member} {x : Val} (h : Needs ms vs T d x) : T.dep = some d := by
  cases T <;> simp only [Needs] at h
  · simp [DTy.dep, h.1]
  · simp [DTy.dep, h.1]

theorem depValue_ok {Δ : Env} {P T : Bytes → Prop} {ms : List DMember} {vs : List Val} {D : DTy} {v : Val} (h : HasDep Δ P T ms vs D v) {d : Member}
    (hd : D.dep = some d) : ∃ x, depValue ms vs D = some x := by
  cases D with
  | plain => simp [DTy.dep] at hd
  | pairs => simp [DTy.dep] at hd
  | tagged tag sw wr alts => exact ⟨_, rfl⟩
  | sized size elem =>
    obtain ⟨n, x, xs, -, -, -, ⟨-, m, h1, h2⟩, -⟩ := h
    exact declared_ok h1 h2

/-- What a member needs is a value of its type. -/
theorem needs_hasTy {Δ : Env} {P T : Bytes → Prop} {ms : List DMember} {vs : List Val} (hnd : (ms.map DMember.name).Nodup) {D : DTy} {v : Val}
    (h : HasDep Δ P T ms vs D v) {d : Member} {x : Val} (hd : Needs ms vs D d x) : x ≠ .none ∧ HasTy Δ P T d.ty x := by
  cases D with
  | plain => exact absurd hd id
  | pairs => exact absurd hd id
  | tagged tag sw wr alts =>
    obtain ⟨k, x', ty, -, -, -, -, h1, h2, -⟩ := h
    obtain ⟨rfl, rfl⟩ := hd
    exact ⟨h1, h2⟩
  | sized size elem =>
    obtain ⟨n, x', xs, -, -, rfl, ⟨-, m, h1, h2⟩, h3⟩ := h
    obtain ⟨rfl, m', h4, h5⟩ := hd
    obtain ⟨-, rfl⟩ := zip_unique hnd h1 h4 (h2.trans h5.symm)
    exact ⟨by simp, h3⟩

/-- The value inside of a member that is there. -/
theorem present_value {Δ : Env} {P T : Bytes → Prop} {ms : List DMember} {vs : List Val} {m : DMember} {v : Val} (h : HasSlot Δ P T ms vs m v)
    (hp : Present m v) : HasDep Δ P T ms vs m.ty (planItem (m, v)).val ∧ v = if m.opt then .some (planItem (m, v)).val else (planItem (m, v)).val := by
  unfold HasSlot at h
  cases ho : m.opt with
  | false =>
    simp only [ho, Bool.false_eq_true, if_false] at h
    simp [planItem, ho, h]
  | true =>
    simp only [ho, if_true] at h
    rcases h with rfl | ⟨x, rfl, h⟩
    · rcases hp with hp | hp
      · rw [ho] at hp; cases hp
      · exact absurd rfl hp
    · simp [planItem, ho, h, Val.inner]

theorem depths_lt {B : Nat} (hB : 0 < B) : ∀ V : List Val, (∀ v ∈ V, v.depth < B) → depths V < B
  | [], _ => by simpa [depths] using hB
  | v :: V, h => by
    have h1 := h v (by simp)
    have h2 := depths_lt hB V (fun v hv => h v (by simp [hv]))
    simp only [depths]
    omega

theorem readsDeps_of {Δ : Env} {nm : List Bytes → Bytes → Prop} {ea : Bool} {jm : JMems} : ∀ (ms : List DMember) (vs : List Val), ms.length = vs.length →
    (∀ m v, (m, v) ∈ ms.zip vs → (∃ d x, jm.get? m.name = some d ∧ d ≠ .null ∧ ReadsDep Δ nm ea jm m.ty d x ∧ v = if m.opt then .some x else x) ∨
      (m.opt = true ∧ jm.get? m.name = none ∧ v = .none)) → ReadsDeps Δ nm ea jm ms vs
  | [], [], _, _ => .nil
  | [], _ :: _, h, _ => by simp at h
  | _ :: _, [], h, _ => by simp at h
  | m :: ms, v :: vs, hl, h => by
    have ih := readsDeps_of ms vs (by simpa using hl) (fun m v hm => h m v (by simp [hm]))
    rcases h m v (by simp) with ⟨d, x, h1, h2, h3, rfl⟩ | ⟨h1, h2, rfl⟩
    · exact .found h1 h2 h3 ih
    · exact .absent h1 h2 ih

section
variable {t : TCfg} {w : WCfg} {Δ : Env} {nm : List Bytes → Bytes → Prop} {ea : Bool}
variable (hck : t.cfg.checked = true) (hΔ : Writable Δ) (hr : Readable nm ea w.tc Δ)
  (hnm : ∀ N n, nm N n → NameOk t N n ∧ (PlainName n ∨ t.escNames = true)) (hea : ea = t.exactAll)

include hck hΔ hr hnm hea

/-- What is written for a class with members that depend on others reads back. -/
theorem dep_round_trip {ms : List DMember} {vs : List Val} {ex : Bool} (hc : Consistent Δ ValidUtf8 (Seven w.only7bit) ms vs)
    (ht : TellApart nm ea ex ms vs) (ho : Ordered ms vs) (hd1 : ∀ v ∈ vs, v.depth < 2 ^ 32 - 1)
    (hd2 : ∀ m v d x, (m, v) ∈ ms.zip vs → Present m v → Needs ms vs m.ty d x → x.depth < 2 ^ 32 - 1) :
    ∃ out, toJsonDep w Δ ms vs = .ok out ∧
      (out.length < 2 ^ 63 → ∃ f0, ∀ f, f0 ≤ f → fromJsonDep t Δ f ms ex out = .ok (.cls vs)) := by
  have hdep : ∀ m v, (m, v) ∈ ms.zip vs → Present m v → HasDep Δ ValidUtf8 (Seven w.only7bit) ms vs m.ty (planItem (m, v)).val := fun m v hm hp =>
    (present_value (hc.values m v hm) hp).1
  obtain ⟨tags, seen, hT, hTnd, -, hseen, hTof, hTin⟩ := planTags_ok (all := ms) (vals := vs) ms vs [] hc.length
    (fun m v hm hp d hd => depValue_ok (hdep m v hm hp) hd) (fun m v hm hv d hd => by
      rcases hc.visible m v hm hv with ⟨ty, h⟩ | ⟨i, h⟩ | h
      · rw [h] at hd; cases hd
      · rw [h] at hd; cases hd
      · exact h)
  have hM := planMembers_ok seen ms vs seen hc.length hc.names (fun _ _ => Iff.rfl)
  generalize hmems : ((ms.zip vs).filter (planKeep seen)).map planItem = mems at hM
  have hseen' : ∀ n, n ∈ seen ↔ n ∈ tags.map OutItem.name := fun n => by rw [hseen]; simp
  -- the items of the second pass
  have hMof : ∀ i ∈ mems, ∃ m v, (m, v) ∈ ms.zip vs ∧ Present m v ∧ m.name ∉ seen ∧ i = planItem (m, v) := by
    intro i hi
    rw [← hmems] at hi
    obtain ⟨⟨m, v⟩, hf, rfl⟩ := List.mem_map.1 hi
    obtain ⟨hz, hk⟩ := List.mem_filter.1 hf
    simp only [planKeep, Bool.and_eq_true, Bool.not_eq_true', contains_false] at hk
    refine ⟨m, v, hz, ?_, hk.1, rfl⟩
    by_cases hop : m.opt = false
    · exact Or.inl hop
    · right
      rintro rfl
      simp only [Bool.not_eq_false] at hop
      simp [hop, Val.isNone] at hk
  have hMin : ∀ m v, (m, v) ∈ ms.zip vs → Present m v → m.name ∉ seen → planItem (m, v) ∈ mems := by
    intro m v hm hp hs
    rw [← hmems]
    refine List.mem_map_of_mem (List.mem_filter.2 ⟨hm, ?_⟩)
    have : (m.opt && v.isNone) = false := by
      rcases hp with h | h
      · simp [h]
      · cases v <;> simp [Val.isNone] at h ⊢
    simp [planKeep, hs, this]
  have hMsub : (mems.map OutItem.name).Sublist (ms.map DMember.name) := by
    rw [← hmems, List.map_map]
    have h1 : ((ms.zip vs).filter (planKeep seen)).Sublist (ms.zip vs) := List.filter_sublist
    have h2 := h1.map (fun p => p.1.name)
    have h3 : (ms.zip vs).map (fun p => p.1.name) = ms.map DMember.name := by
      rw [show (fun p : DMember × Val => p.1.name) = DMember.name ∘ Prod.fst from rfl, ← List.map_map,
        List.map_fst_zip (by rw [hc.length])]
    rw [h3] at h2
    exact h2
  have hTneed : ∀ i ∈ tags, ∃ m v d x, (m, v) ∈ ms.zip vs ∧ Present m v ∧ Needs ms vs m.ty d x ∧ i = ⟨d.name, .plain d.ty, x⟩ := by
    intro i hi
    obtain ⟨m, v, d, x, h1, h2, h3, h4, h5⟩ := hTof i hi
    exact ⟨m, v, d, x, h1, h2, needs_of h3 h4, h5⟩
  have hnd : ((tags ++ mems).map OutItem.name).Nodup := by
    rw [List.map_append, List.nodup_append]
    refine ⟨hTnd, hMsub.nodup hc.names, ?_⟩
    rintro a ha b hb rfl
    obtain ⟨i, hi, rfl⟩ := List.mem_map.1 hb
    obtain ⟨m, v, -, -, hs, rfl⟩ := hMof i hi
    exact hs ((hseen' _).2 ha)
  -- every item is a value of its type
  have hItem : ∀ i ∈ tags ++ mems, HasDep Δ ValidUtf8 (Seven w.only7bit) ms vs i.ty i.val := by
    intro i hi
    rcases List.mem_append.1 hi with hi | hi
    · obtain ⟨m, v, d, x, h1, h2, h3, rfl⟩ := hTneed i hi
      exact needs_hasTy hc.names (hdep m v h1 h2) h3
    · obtain ⟨m, v, h1, h2, -, rfl⟩ := hMof i hi
      exact hdep m v h1 h2
  have hflat := fun i hi => writeDep_flat (w := w) hΔ.nodup i (hItem i hi) 1
  -- every member that is there is written, and so is what it needs
  have hPres : ∀ m v, (m, v) ∈ ms.zip vs → Present m v → planItem (m, v) ∈ tags ++ mems := by
    intro m v hm hp
    by_cases hs : m.name ∈ seen
    · obtain ⟨i, hi, hn⟩ := List.mem_map.1 ((hseen' _).1 hs)
      obtain ⟨m', v', d, x, h1, h2, h3, rfl⟩ := hTneed i hi
      obtain ⟨h4, h5, h6⟩ := hc.declared m' v' d x m v h1 h2 h3 hm hn.symm
      have : planItem (m, v) = ⟨d.name, .plain d.ty, x⟩ := by
        simp only [planItem, h4, h5, h6, Bool.false_eq_true, if_false]
        rw [← hn]
      rw [this]
      exact List.mem_append_left _ hi
    · exact List.mem_append_right _ (hMin m v hm hp hs)
  have hNeed : ∀ m v d x, (m, v) ∈ ms.zip vs → Present m v → Needs ms vs m.ty d x → (⟨d.name, .plain d.ty, x⟩ : OutItem) ∈ tags := by
    intro m v d x hm hp hn
    obtain ⟨i, hi, he⟩ := List.mem_map.1 ((hseen' _).1 (hTin m v d hm hp (dep_of_needs hn)))
    obtain ⟨m', v', d', x', h1, h2, h3, rfl⟩ := hTneed i hi
    obtain ⟨rfl, rfl⟩ := hc.agree m v m' v' d d' x x' hm h1 hp h2 hn h3 he.symm
    exact hi
  -- the object
  have hList : ∀ l : List OutItem, (∀ i ∈ l, HasTy Δ ValidUtf8 (Seven w.only7bit) i.flat.1 i.flat.2) →
      HasList Δ ValidUtf8 (Seven w.only7bit) ((l.map fun i => (⟨i.name, i.flat.1⟩ : Member)).map Member.ty) (l.map fun i => i.flat.2) := by
    intro l
    induction l with
    | nil => intro _; simp [HasList]
    | cons i l ih =>
      intro h
      simp only [List.map_cons, HasList]
      exact ⟨h i (by simp), ih fun j hj => h j (by simp [hj])⟩
  have hHL := hList (tags ++ mems) (fun i hi => (hflat i hi).2.1)
  obtain ⟨jm, hjm⟩ := layMembers_ok (w := w) 1 _ _ hHL
  have hMn : ((tags ++ mems).map fun i => (⟨i.name, i.flat.1⟩ : Member)).map Member.name = (tags ++ mems).map OutItem.name := by
    rw [List.map_map]; rfl
  obtain ⟨hnames, hget⟩ := layMembers_all 1 _ _ jm hjm (by simp) (by
    intro v hv
    obtain ⟨i, hi, rfl⟩ := List.mem_map.1 hv
    exact (hflat i hi).2.2)
  rw [hMn] at hnames hget
  have hGet : ∀ i ∈ tags ++ mems, ∃ d, jm.get? i.name = some d ∧ layVal w Δ 1 i.flat.1 i.flat.2 = .ok d ∧ d ≠ .null ∧
      Reads Δ nm ea i.flat.1 d i.flat.2 := by
    intro i hi
    have : ((⟨i.name, i.flat.1⟩ : Member), i.flat.2) ∈
        ((tags ++ mems).map fun i => (⟨i.name, i.flat.1⟩ : Member)).zip ((tags ++ mems).map fun i => i.flat.2) := by
      rw [List.zip_map']
      exact List.mem_map.2 ⟨i, hi, rfl⟩
    obtain ⟨d, h1, h2⟩ := hget hnd _ _ this
    exact ⟨d, h1, h2, layVal_ne_null 1 _ _ (hflat i hi).2.1 (hflat i hi).2.2 h2, layVal_reads hΔ hr 1 _ _ (hflat i hi).2.1 h2⟩
  have hwr : toJsonDep w Δ ms vs = .ok (JVal.obj (closing w 0 ms.isEmpty) jm).text := by
    have h1 := writeItems_flat (w := w) (Δ := Δ) 1 (tags ++ mems) true [] (fun i hi => ⟨(hflat i hi).1, (hflat i hi).2.2⟩) hnd (by simp)
    rw [writeMembers_text hΔ 1 [] true _ _ hHL (by rw [hMn]; exact hnd) (by simp), hjm] at h1
    simp only [Res.ok_bind, if_true] at h1
    simp only [toJsonDep, hT, hM, Res.ok_bind, h1, obj_text1]
  refine ⟨_, hwr, fun hsz => ?_⟩
  have hOwnOrNeed : ∀ n ∈ jm.names, (∃ m ∈ ms, m.name = n) ∨ ∃ m v d x, (m, v) ∈ ms.zip vs ∧ Present m v ∧ Needs ms vs m.ty d x ∧ d.name = n := by
    intro n hn
    rw [hnames] at hn
    obtain ⟨i, hi, rfl⟩ := List.mem_map.1 hn
    rcases List.mem_append.1 hi with hi | hi
    · obtain ⟨m, v, d, x, h1, h2, h3, rfl⟩ := hTneed i hi
      exact Or.inr ⟨m, v, d, x, h1, h2, h3, rfl⟩
    · obtain ⟨m, v, h1, h2, -, rfl⟩ := hMof i hi
      exact Or.inl ⟨m, (List.of_mem_zip h1).1, rfl⟩
  have hAbs : ∀ m v, (m, v) ∈ ms.zip vs → ¬ Present m v → m.name ∉ jm.names := by
    intro m v hm hp hn
    rw [hnames, List.map_append] at hn
    rcases List.mem_append.1 hn with hn | hn
    · obtain ⟨i, hi, hn⟩ := List.mem_map.1 hn
      obtain ⟨m', v', d, x, h1, h2, h3, rfl⟩ := hTneed i hi
      exact hp (Or.inl (hc.declared m' v' d x m v h1 h2 h3 hm hn.symm).1)
    · obtain ⟨i, hi, hn⟩ := List.mem_map.1 hn
      obtain ⟨m', v', h1, h2, -, rfl⟩ := hMof i hi
      obtain ⟨rfl, rfl⟩ := zip_unique hc.names h1 hm hn
      exact hp h2
  have hcount : ∀ n, jm.names.count n ≤ 1 := fun n => by rw [hnames]; exact List.nodup_iff_count.1 hnd n
  have hreads : ReadsClass Δ nm ea ex jm ms vs := by
    refine ⟨fun n hn => ?_, fun m _ => hcount m.name, fun he n hn => ?_, ?_⟩
    · rcases hOwnOrNeed n hn with ⟨m, hm, rfl⟩ | ⟨m, v, d, x, h1, h2, h3, rfl⟩
      · exact (ht.own m hm).2
      · exact (ht.need m v d x h1 h2 h3).2.1
    · rcases hOwnOrNeed n hn with h | ⟨m, v, d, x, h1, h2, h3, rfl⟩
      · exact h
      · exact (ht.need m v d x h1 h2 h3).2.2 he
    · refine readsDeps_of ms vs hc.length fun m v hm => ?_
      by_cases hp : Present m v
      · left
        obtain ⟨hv, hveq⟩ := present_value (hc.values m v hm) hp
        obtain ⟨d, hg, hl, hne, hrd⟩ := hGet _ (hPres m v hm hp)
        refine ⟨d, (planItem (m, v)).val, hg, hne, ?_, hveq⟩
        have hty : (planItem (m, v)).ty = m.ty := rfl
        generalize planItem (m, v) = i at hv hrd hty
        obtain ⟨iname, ity, ival⟩ := i
        simp only at hty
        subst hty
        simp only at hv ⊢
        cases hD : m.ty with
        | plain ty =>
          rw [hD] at hrd
          exact .plain hrd
        | tagged tag sw wr alts =>
          rw [hD] at hrd hv
          obtain ⟨k, x, ty, rfl, hx, hk, hxt, h1, h2, rfl⟩ := hv
          have hgd : alts.getD (sw (wr vs)) .bool = ty := by simp [List.getD, hk]
          simp only [OutItem.flat, hgd] at hrd
          have hN : Needs ms vs m.ty tag (wr vs) := by rw [hD]; exact ⟨rfl, rfl⟩
          obtain ⟨dt, hgt, -, -, hrt⟩ := hGet _ (List.mem_append_left _ (hNeed m v tag (wr vs) hm hp hN))
          obtain ⟨h3, h4, h5⟩ := ht.tags m v tag sw wr alts hm hp hD
          refine .tagged (fun n hn => ?_) (hcount _) (by simp [h3]) (.found hgt hrt .nil) hk hrd
          rcases hOwnOrNeed n hn with ⟨m', hm', rfl⟩ | ⟨m', v', d', x', h1, h2, h3, rfl⟩
          · exact h4 m' hm'
          · exact h5 m' v' d' x' h1 h2 h3
        | sized size elem =>
          rw [hD] at hrd hv
          obtain ⟨n, x, xs, rfl, h1, rfl, h2, h3⟩ := hv
          have hN : Needs ms vs m.ty size (.int n) := by rw [hD]; exact h2
          obtain ⟨dt, hgt, -, -, hrt⟩ := hGet _ (List.mem_append_left _ (hNeed m v size _ hm hp hN))
          exact .sized hgt hrt hrd
        | pairs j =>
          rw [hD] at hrd hv
          obtain ⟨k, x, ex, xs, rfl, hi, -⟩ := hv
          exact .pairs hi hrd
      · right
        have hn := hAbs m v hm hp
        unfold Present at hp
        simp only [not_or, Bool.not_eq_false, not_not] at hp
        exact ⟨hp.1, JMems_get?_none.2 hn, hp.2⟩
  have hTM : jm.names = tags.map OutItem.name ++ mems.map OutItem.name := by rw [hnames, List.map_append]
  have hplace : ∀ (p : Nat) m v, ms[p]? = some m → vs[p]? = some v → m.name ∈ jm.names → PlaceOk jm (ms.map DMember.name) p m v := by
    intro p m v hpm hpv hin
    have hm : (m, v) ∈ ms.zip vs := by
      obtain ⟨v', hpv', hm⟩ := mem_zip_get hc.length hpm
      rw [hpv] at hpv'
      obtain rfl : v = v' := by simpa using hpv'
      exact hm
    have hp : Present m v := by
      by_contra h
      exact hAbs m v hm h hin
    have hord := ho p m v hpm hpv hp
    have hplainNeed : (∀ ty, m.ty ≠ .plain ty) → m.name ∉ tags.map OutItem.name := by
      intro hne hn
      obtain ⟨i, hi, hn⟩ := List.mem_map.1 hn
      obtain ⟨m', v', d, x, h1, h2, h3, rfl⟩ := hTneed i hi
      exact hne _ (hc.declared m' v' d x m v h1 h2 h3 hm hn.symm).2.1
    unfold PlaceOk
    cases hD : m.ty with
    | plain ty => trivial
    | tagged tag sw wr alts =>
      simp only [hD] at hord
      have hnt := hplainNeed (by simp [hD])
      rcases hord with ⟨k, x, hv, hb⟩ | hord
      · right
        intro d hg
        obtain ⟨hv', hveq⟩ := present_value (hc.values m v hm) hp
        obtain ⟨d', hg', hl, -⟩ := hGet _ (hPres m v hm hp)
        change jm.get? m.name = some d' at hg'
        rw [hg] at hg'
        obtain rfl : d = d' := by simpa using hg'
        have hbl : v.bareLit = false := by
          rcases hv with rfl | rfl <;> (simp only [Val.bareLit]; exact boxed_bareLit hb)
        rw [← and_assoc]
        refine ⟨layVal_boxed ?_ hl, hbl⟩
        have hval : (planItem (m, v)).val = .alt k x := by
          rw [hD] at hv'
          obtain ⟨k', x', -, hk', -⟩ := hv'
          rw [hk'] at hveq ⊢
          cases hopt : m.opt with
          | false =>
            simp only [hopt, Bool.false_eq_true, if_false] at hveq
            rcases hv with h | h
            · rw [← h, hveq]
            · rw [h] at hveq; cases hveq
          | true =>
            simp only [hopt, if_true] at hveq
            rcases hv with h | h
            · rw [h] at hveq; cases hveq
            · rw [h] at hveq; injection hveq with h'; exact h'.symm
        have hty : (planItem (m, v)).ty = .tagged tag sw wr alts := hD
        simp only [OutItem.flat, hty, hval, hb]
      · left
        intro j n n' hj hn hn'
        obtain ⟨mj, hmj, rfl⟩ : ∃ mj, ms[j]? = some mj ∧ mj.name = n := by
          rw [List.getElem?_map] at hn
          cases h : ms[j]? with
          | none => simp [h] at hn
          | some mj => exact ⟨mj, rfl, by simpa [h] using hn⟩
        obtain rfl : m.name = n' := by simpa [List.getElem?_map, hpm] using hn'
        obtain ⟨vj, hvj, hzj⟩ := mem_zip_get hc.length hmj
        have hpj := hord j mj vj hj hmj hvj
        have hinj : mj.name ∈ jm.names := by
          obtain ⟨d, h1, -⟩ := hGet _ (hPres mj vj hzj hpj)
          exact mem_names_iff.2 ⟨d, h1⟩
        refine ⟨?_, fun hnull => ?_⟩
        · unfold JMems.Before
          rw [hTM] at hin hinj ⊢
          rw [List.idxOf_append_of_notMem hnt]
          by_cases hjt : mj.name ∈ tags.map OutItem.name
          · rw [List.idxOf_append_of_mem hjt]
            have := List.idxOf_lt_length_of_mem hjt
            omega
          · rw [List.idxOf_append_of_notMem hjt]
            have h1 := (List.mem_append.1 hinj).resolve_left hjt
            have h2 := (List.mem_append.1 hin).resolve_left hnt
            have := idxOf_sublist hMsub hc.names h1 h2 (by
              rw [idxOf_getElem? hc.names hn, idxOf_getElem? hc.names hn']
              exact hj)
            omega
        · obtain ⟨d, h1, -, h2, -⟩ := hGet _ (hPres mj vj hzj hpj)
          change jm.get? mj.name = some d at h1
          rw [hnull] at h1
          exact absurd (by simpa using h1.symm) h2
    | sized size elem =>
      simp only [hD] at hord
      have hnt := hplainNeed (by simp [hD])
      refine ⟨hord, Or.inr ?_⟩
      have hv' := hdep m v hm hp
      rw [hD] at hv'
      obtain ⟨n, x, xs, -, -, -, h2, -⟩ := hv'
      have hN : Needs ms vs m.ty size x := by rw [hD]; exact h2
      have := List.mem_map_of_mem (f := OutItem.name) (hNeed m v size x hm hp hN)
      unfold JMems.Before
      rw [hTM, List.idxOf_append_of_notMem hnt, List.idxOf_append_of_mem this]
      have := List.idxOf_lt_length_of_mem this
      omega
    | pairs j =>
      intro w' hg
      obtain ⟨d, h1, h2, -⟩ := hGet _ (hPres m v hm hp)
      change jm.get? m.name = some d at h1
      rw [hg] at h1
      obtain rfl : JVal.arr w' .nil = d := by simpa using h1
      have hv' := hdep m v hm hp
      rw [hD] at hv'
      obtain ⟨k, x, ex, xs, hxs, -⟩ := hv'
      have hty : (planItem (m, v)).ty = .pairs j := hD
      simp only [OutItem.flat, hty, hxs, layVal] at h2
      obtain ⟨es, hes, h2⟩ := Res.bind_eq_ok.1 h2
      simp only [Res.ok.injEq, JVal.arr.injEq] at h2
      obtain ⟨rfl, rfl⟩ := h2
      cases xs with
      | nil => simp [closing]
      | cons a xs =>
        simp only [layElems] at hes
        obtain ⟨_, -, hes⟩ := Res.bind_eq_ok.1 hes
        obtain ⟨_, -, hes⟩ := Res.bind_eq_ok.1 hes
        simp at hes
  have hdepth : jm.depth < 2 ^ 32 - 1 := by
    refine Nat.lt_of_le_of_lt (layMembers_depth 1 _ _ hjm) (depths_lt (by norm_num) _ ?_)
    intro v hv
    obtain ⟨i, hi, rfl⟩ := List.mem_map.1 hv
    rcases List.mem_append.1 hi with hi | hi
    · obtain ⟨m, v, d, x, h1, h2, h3, rfl⟩ := hTneed i hi
      exact hd2 m v d x h1 h2 h3
    · obtain ⟨m, v, h1, h2, -, rfl⟩ := hMof i hi
      have hv := hd1 v (List.of_mem_zip h1).2
      obtain ⟨h3, h4⟩ := present_value (hc.values m v h1) h2
      have h5 : (planItem (m, v)).val.depth < 2 ^ 32 - 1 := by
        rw [h4] at hv
        cases ho : m.opt <;> simp only [ho, if_true, Bool.false_eq_true, if_false, Val.depth] at hv <;> exact hv
      refine Nat.lt_of_le_of_lt ?_ h5
      cases hD : m.ty with
      | plain ty =>
        have hty : (planItem (m, v)).ty = .plain ty := hD
        simp [OutItem.flat, hty]
      | tagged tag sw wr alts =>
        have hty : (planItem (m, v)).ty = .tagged tag sw wr alts := hD
        rw [hD] at h3
        obtain ⟨k, x, ty, h3, -⟩ := h3
        simp [OutItem.flat, hty, h3, Val.depth]
      | sized size elem =>
        have hty : (planItem (m, v)).ty = .sized size elem := hD
        rw [hD] at h3
        obtain ⟨n, x, xs, h3, -⟩ := h3
        simp [OutItem.flat, hty, h3, Val.depth, depths]
      | pairs j =>
        have hty : (planItem (m, v)).ty = .pairs j := hD
        simp [OutItem.flat, hty]
  have hbody : ∀ m ∈ (tags ++ mems).map (fun i => (⟨i.name, i.flat.1⟩ : Member)), IsStrBody m.name := by
    intro m hm
    obtain ⟨i, hi, rfl⟩ := List.mem_map.1 hm
    rcases List.mem_append.1 hi with hi | hi
    · obtain ⟨m, v, d, x, h1, h2, h3, rfl⟩ := hTneed i hi
      exact (ht.need m v d x h1 h2 h3).1
    · obtain ⟨m, v, h1, h2, -, rfl⟩ := hMof i hi
      exact (ht.own m (List.of_mem_zip h1).1).1
  have hdok : DOk w.tc (JVal.obj (closing w 0 ms.isEmpty) jm) :=
    ⟨⟨closing_tail w 0 _, layMembers_wf hΔ 1 _ _ hHL hbody hjm⟩, by simp only [JVal.depth]; omega, hsz⟩
  obtain ⟨f0, hf0⟩ := fromJsonDep_reads hck hΔ.nodup hnm hea hc.names hdok hreads hplace []
  refine ⟨f0, fun f hle => ?_⟩
  simpa [dropNul, trimChecked] using hf0 f hle

end

end Verif
