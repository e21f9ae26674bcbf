import Verif.Proof.TypedMain

/-!
# Typed parsing: `from_json`, and objects that agree in their mapped members
-/

namespace Verif

open Spec

/-! ## The last byte of a value -/

theorem number_ne_zero {n : Bytes} (h : IsNumber n) : ∀ c ∈ n, c ≠ 0 := by
  have dig : ∀ {c : UInt8}, IsDig c → c ≠ 0 := by
    rintro c h rfl
    simp [IsDig, UInt8.le_iff_toNat_le] at h
  obtain ⟨m, i, f, e, hm, hi, hf, he, rfl⟩ := h
  intro c hc
  simp only [List.mem_append] at hc
  rcases hc with hc | hc | hc | hc
  · rcases hm with rfl | rfl
    · simp at hc
    · simp at hc; subst hc; decide
  · exact dig ((isInt_digits hi).2 c hc)
  · rcases hf with rfl | ⟨ds, hds, rfl⟩
    · simp at hc
    · rcases List.mem_cons.1 hc with rfl | hc
      · decide
      · exact dig (hds.2 c hc)
  · rcases he with rfl | ⟨x, sg, ds, hx, hs, hds, rfl⟩
    · simp at hc
    · rcases List.mem_cons.1 hc with rfl | hc
      · rcases hx with rfl | rfl <;> decide
      · rcases List.mem_append.1 hc with hc | hc
        · rcases hs with rfl | rfl | rfl
          · simp at hc
          · simp at hc; subst hc; decide
          · simp at hc; subst hc; decide
        · exact dig (hds.2 c hc)

theorem text_last {tc : Bool} {d : JVal} (hd : d.WFt tc) : d.text.getLast? ≠ some 0 := by
  match d with
  | .null | .tru | .fls => decide
  | .num t => exact fun h => number_ne_zero hd 0 (List.mem_of_getLast? h) rfl
  | .str b => 
    have : (JVal.str b).text = (0x22 :: b) ++ [0x22] := by simp [JVal.text]
    rw [this, List.getLast?_append]; simp
  | .arr w es =>
    have : ∃ x, (JVal.arr w es).text = x ++ [0x5D] := by
      match es with
      | .nil => exact ⟨0x5B :: w, by simp [JVal.text]⟩
      | .cons pre v post tl => exact ⟨0x5B :: (pre ++ (v.text ++ (post ++ (tl.text ++ w)))), by simp [JVal.text]⟩
    obtain ⟨x, hx⟩ := this
    rw [hx, List.getLast?_append]; simp
  | .obj w es =>
    have : ∃ x, (JVal.obj w es).text = x ++ [0x7D] := by
      match es with
      | .nil => exact ⟨0x7B :: w, by simp [JVal.text]⟩
      | .cons pre n pc qc v post tl =>
        exact ⟨0x7B :: (pre ++ (0x22 :: (n ++ (0x22 :: (pc ++ (0x3A :: (qc ++ (v.text ++ (post ++ (tl.text ++ w)))))))))),
          by simp [JVal.text]⟩
    obtain ⟨x, hx⟩ := this
    rw [hx, List.getLast?_append]; simp

theorem dropNul_append {tc : Bool} {d : JVal} (hd : d.WFt tc) (k : Bytes) :
    dropNul (d.text ++ k) = d.text ++ dropNul k := by
  unfold dropNul
  cases k with
  | nil => simp [text_last hd]
  | cons c cs =>
    have : (d.text ++ c :: cs).getLast? = (c :: cs).getLast? := by
      rw [List.getLast?_append]
      cases h : (c :: cs).getLast? with
      | none => simp at h
      | some _ => rfl
    rw [this]
    split
    · rw [List.dropLast_append_of_ne_nil (by simp)]
    · rfl

theorem afterValue_dropNul {k : Bytes} (h : AfterValue k) : AfterValue (dropNul k) := by
  unfold dropNul
  split
  · rename_i h0
    obtain ⟨w, t, hw, rfl, ht⟩ := h
    rcases ht with rfl | ⟨x, t', rfl, hx⟩
    · simp only [List.append_nil] at h0 ⊢
      have := hw 0 (List.mem_of_getLast? h0)
      unfold isWsByte at this
      exact absurd this (by decide)
    · refine ⟨w, (x :: t').dropLast, hw, by rw [List.dropLast_append_of_ne_nil (by simp)], ?_⟩
      cases t' with
      | nil => exact Or.inl rfl
      | cons y t' => exact Or.inr ⟨x, _, rfl, hx⟩
  · exact h

/-! ## `from_json` -/

section
variable {t : TCfg} {Δ : Env} {nm : List Bytes → Bytes → Prop} {ea tc : Bool}
  (hck : t.cfg.checked = true) (henv : EnvOk Δ)
  (hnm : ∀ N n, nm N n → NameOk t N n ∧ (PlainName n ∨ t.escNames = true)) (hea : ea = t.exactAll)
include hck henv hnm hea

/-- `from_json` on a document followed by the text `k`. -/
theorem fromJson_reads {ty : Ty} {d : JVal} {v : Val} (h : Reads Δ nm ea ty d v) (hd : DOk tc d) (k : Bytes)
    (hk : d.ends v = false → AfterValue k) (hre : dropNul k = [] → EndsWell d v) :
    ∃ f0, ∀ f, f0 ≤ f → fromJson t Δ f ty (d.text ++ k) =
      if t.verifyEnd = true ∧ trimChecked (dropNul k) ≠ [] then .err .invalidEndOfValue else .ok v := by
  obtain ⟨f0, hf0⟩ := reads_sem hck henv hnm hea h hd
  refine ⟨f0, fun f hf => ?_⟩
  obtain ⟨r, hr, htr⟩ := (hf0 f hf).1 (dropNul k) (fun hc => ⟨afterValue_dropNul (hk hc), hre⟩) (by simp [hck])
  unfold fromJson
  have he : (d.text ++ k).isEmpty = false := text_ne_empty hd.wf k
  have hn : (if (d.text ++ k).getLast? = some 0 then (d.text ++ k).dropLast else d.text ++ k) = d.text ++ dropNul k :=
    dropNul_append hd.wf k
  simp only [he, Bool.not_false, ensure_true, Res.ok_bind, hn, hr, trim_ck hck, trimChecked_trimEq htr]
  cases t.verifyEnd with
  | false => simp
  | true =>
    cases trimChecked (dropNul k) <;> simp [ensure]

/-- `from_json` on a document. -/
theorem fromJson_doc {ty : Ty} {d : JVal} {v : Val} (h : Reads Δ nm ea ty d v) (hd : DOk tc d) (hre : EndsWell d v) :
    ∃ f0, ∀ f, f0 ≤ f → fromJson t Δ f ty d.text = .ok v := by
  obtain ⟨f0, hf0⟩ := fromJson_reads hck henv hnm hea h hd [] (fun _ => afterValue_nil) (fun _ => hre)
  refine ⟨f0, fun f hf => ?_⟩
  have := hf0 f hf
  simpa [dropNul, trimChecked] using this

/-- The members of a class with one missing that is not nullable. -/
theorem parseObj_missing {ms : List Member} {exact : Bool} {w : Bytes} {jm : JMems}
    (hnd : (ms.map Member.name).Nodup) (hd : DOk tc (.obj w jm))
    (hok : ∀ n ∈ jm.names, nm (ms.map Member.name) n) (honce : ∀ m ∈ ms, jm.names.count m.name ≤ 1)
    (hex : exact = true → ∀ n ∈ jm.names, ∃ m ∈ ms, m.name = n)
    (hread : ∀ m ∈ ms, ∀ d, jm.get? m.name = some d → ∃ v, Reads Δ nm ea m.ty d v)
    {m : Member} (hm : m ∈ ms) (ho : m.ty.isOpt = false) (hg : jm.get? m.name = none) :
    ∃ f0, ∀ f, f0 ≤ f → parseObj t exact ms (parseU t Δ f) (parseK t Δ f) (JVal.obj w jm).text = .err .missingMember := by
  -- the members before the first one that is missing
  have hsplit : ∀ ms' : List Member, (∀ m ∈ ms', m ∈ ms) → (∃ m ∈ ms', m.ty.isOpt = false ∧ jm.get? m.name = none) →
      ∃ a m b vs, ms' = a ++ m :: b ∧ m.ty.isOpt = false ∧ jm.get? m.name = none ∧ ReadsMembers Δ nm ea a jm vs := by
    intro ms'
    induction ms' with
    | nil => rintro - ⟨m, hm, -⟩; simp at hm
    | cons x xs ih =>
      intro hsub hex
      by_cases hx : x.ty.isOpt = false ∧ jm.get? x.name = none
      · exact ⟨[], x, xs, [], rfl, hx.1, hx.2, .nil⟩
      · obtain ⟨m', hm', h1, h2⟩ := hex
        have hm'' : m' ∈ xs := by
          rcases List.mem_cons.1 hm' with rfl | h
          · exact absurd ⟨h1, h2⟩ hx
          · exact h
        obtain ⟨a, m, b, vs, rfl, h3, h4, h5⟩ := ih (fun m hm => hsub m (by simp [hm])) ⟨m', hm'', h1, h2⟩
        cases hxg : jm.get? x.name with
        | some d =>
          obtain ⟨v, hv⟩ := hread x (hsub x (by simp)) d hxg
          exact ⟨x :: a, m, b, v :: vs, rfl, h3, h4, .found hxg hv h5⟩
        | none =>
          have : x.ty.isOpt = true := by
            cases h : x.ty.isOpt with
            | true => rfl
            | false => exact absurd ⟨h, hxg⟩ hx
          exact ⟨x :: a, m, b, .none :: vs, rfl, h3, h4, .absent hxg this h5⟩
  obtain ⟨a, m, b, vs, hms, hmo, hmg, ha⟩ := hsplit ms (fun _ h => h) ⟨m, hm, ho, hg⟩
  obtain ⟨f0, hf0⟩ := members_sem hck henv hnm hea ha hd.mems
  refine ⟨f0, fun f hf => ?_⟩
  have hsem := hf0 f hf
  have hw := hd.wf
  simp only [JVal.WFt] at hw
  have hlocs : ∀ (k : Nat) (n : Bytes), (ms.map Member.name)[k]? = some n →
      (ms.map fun _ => (none : Option (Range × Bytes)))[k]? = some none := by
    intro k n hn
    rw [List.getElem?_map] at hn ⊢
    cases h : ms[k]? with
    | none => rw [h] at hn; simp at hn
    | some m => rfl
  have hinv : CInv t tc exact (ms.map Member.name) 0 jm jm (ms.map fun _ => none) := by
    refine ⟨by simp, hw.2, hd.mems.depth, hd.mems.size, fun n hn => hnm _ n (hok n hn), ?_, ?_, ?_, ?_⟩
    · intro n hn
      obtain ⟨m, hm, rfl⟩ := List.mem_map.1 hn
      exact honce m hm
    · intro he n hn
      obtain ⟨m, hm, rfl⟩ := hex he n hn
      exact List.mem_map_of_mem hm
    · exact fun k n d _ hn hg => ⟨hg, hlocs k n hn⟩
    · exact fun k n _ hn hg => Or.inl ⟨hg, hlocs k n hn⟩
  obtain ⟨b₀, hb₀, hmv⟩ := obj_open (k := []) hd.wf
  obtain ⟨b', rest', locs', h1, h2, h3⟩ := classMembers_prefix (t := t) hnd (k := []) hw.1 (m :: b) a vs 0 jm _
    (trimChecked b₀) (by simp [← hms]) hinv hmv hsem
  have hpos : (ms.map Member.name)[0 + a.length]? = some m.name := by simp [hms]
  have hgr : rest'.get? m.name = none ∧ (locs'[0 + a.length]?) = some none := by
    cases hr : rest'.get? m.name with
    | some d => have := (h3.ahead _ _ d (Nat.le_refl _) hpos hr).1; rw [hmg] at this; simp at this
    | none =>
      refine ⟨rfl, ?_⟩
      rcases h3.behind _ _ (Nat.le_refl _) hpos hr with ⟨-, h⟩ | ⟨d, h, -⟩ | ⟨d, _, _, h, -⟩
      · exact h
      · rw [hmg] at h; simp at h
      · rw [hmg] at h; simp at h
  obtain ⟨locs'', hfl, -⟩ := (findLoop_sem hnd hpos (k := []) hw.1 rest' locs' h3).2 hck hgr.1
  have hcm : classMembers t exact (ms.map Member.name) (parseU t Δ f) (parseK t Δ f) (0 + a.length) (m :: b)
      locs' b' = .err .missingMember := by
    unfold classMembers
    simp only [moveNext_ck hck, h2, Res.ok_bind, hck, assertWeak_checked, objRest_head, ensure_true]
    simp only [findMember, hgr.2, hmo, hck, assertWeak_checked, Option.join, Option.bind,
      Bool.false_or, trimUnchecked_objRest]
    match rest' with
    | .nil => simp [objRest, headIs, ensure]
    | .cons .. =>
      simp [objRest, headIs] at hfl ⊢
      simp [hfl]
  unfold parseObj
  rw [List.append_nil] at hb₀
  have e : ms = a ++ m :: b := hms
  simp only [trim_ck hck, hb₀, Res.ok_bind, hck, assertWeak_checked, headIs, beq_self_eq_true, ensure_true,
    List.tail_cons]
  rw [← e] at h1
  rw [h1, hcm]
  rfl

/-- A class with a member missing that is not nullable. -/
theorem fromJson_missing {i : Nat} {ms : List Member} {ex : Bool} {w : Bytes} {jm : JMems}
    (hi : Δ i = .obj ms ex) (hd : DOk tc (.obj w jm))
    (hok : ∀ n ∈ jm.names, nm (ms.map Member.name) n) (honce : ∀ m ∈ ms, jm.names.count m.name ≤ 1)
    (hex : (ex || ea) = true → ∀ n ∈ jm.names, ∃ m ∈ ms, m.name = n)
    (hread : ∀ m ∈ ms, ∀ d, jm.get? m.name = some d → ∃ v, Reads Δ nm ea m.ty d v)
    {m : Member} (hm : m ∈ ms) (ho : m.ty.isOpt = false) (hg : jm.get? m.name = none) :
    ∃ f0, ∀ f, f0 ≤ f → fromJson t Δ f (.ref i) (JVal.obj w jm).text = .err .missingMember := by
  obtain ⟨f0, hf0⟩ := parseObj_missing hck henv hnm hea (exact := ex || t.exactAll) (henv.nodup i ms ex hi) hd hok honce (hea ▸ hex)
    hread hm ho hg
  refine ⟨f0 + 1, fun f hf => ?_⟩
  obtain ⟨f, rfl⟩ : ∃ g, f = g + 1 := ⟨f - 1, by omega⟩
  have hobj := hf0 f (by omega)
  have hne := text_ne_empty hd.wf []
  rw [List.append_nil] at hne
  unfold fromJson
  simp only [hne, Bool.not_false, ensure_true, Res.ok_bind, if_neg (text_last hd.wf), parseU, hi, hck, assertWeak_checked,
    hobj, Res.err_bind]
end

/-! ## Objects that agree in their mapped members -/

theorem readsMembers_congr {Δ : Env} {nm : List Bytes → Bytes → Prop} {ea : Bool} :
    ∀ {ms : List Member} {jm jm' : JMems} {vs : List Val}, ReadsMembers Δ nm ea ms jm vs →
      (∀ m ∈ ms, jm'.get? m.name = jm.get? m.name) → ReadsMembers Δ nm ea ms jm' vs
  | _, _, _, _, .nil, _ => .nil
  | _, _, _, _, .found hg hr h, he => .found (by rw [he _ (by simp), hg]) hr (readsMembers_congr h fun m hm => he m (by simp [hm]))
  | _, _, _, _, .absent hg ho h, he =>
    .absent (by rw [he _ (by simp), hg]) ho (readsMembers_congr h fun m hm => he m (by simp [hm]))

theorem lookup_filter {N : List Bytes} {n : Bytes} (hn : n ∈ N) (l : List (Bytes × JVal)) :
    (l.filter fun p => N.contains p.1).lookup n = l.lookup n := by
  induction l with
  | nil => rfl
  | cons p l ih =>
    by_cases hp : p.1 ∈ N
    · rw [List.filter_cons_of_pos (by simpa using hp)]
      obtain ⟨a, b⟩ := p
      simp only [List.lookup_cons, ih]
    · rw [List.filter_cons_of_neg (by simpa using hp), ih]
      obtain ⟨a, b⟩ := p
      simp only [List.lookup_cons]
      have : (n == a) = false := by
        simp only [beq_eq_false_iff_ne]
        rintro rfl
        exact hp hn
      simp [this]

theorem count_filter_names {N : List Bytes} {n : Bytes} (hn : n ∈ N) (l : List (Bytes × JVal)) :
    ((l.filter fun p => N.contains p.1).map Prod.fst).count n = (l.map Prod.fst).count n := by
  induction l with
  | nil => rfl
  | cons p l ih =>
    by_cases hp : p.1 ∈ N
    · rw [List.filter_cons_of_pos (by simpa using hp)]
      simp only [List.map_cons, List.count_cons, ih]
    · rw [List.filter_cons_of_neg (by simpa using hp), ih]
      simp only [List.map_cons, List.count_cons]
      have : (p.1 == n) = false := by
        simp only [beq_eq_false_iff_ne]
        rintro rfl
        exact hp hn
      simp [this]

theorem lookup_perm {n : Bytes} {l l' : List (Bytes × JVal)} (h : l.Perm l') (hc : (l.map Prod.fst).count n ≤ 1) :
    l.lookup n = l'.lookup n := by
  induction h with
  | nil => rfl
  | cons x _ ih =>
    obtain ⟨a, b⟩ := x
    simp only [List.map_cons, List.count_cons] at hc
    simp only [List.lookup_cons]
    rw [ih (by omega)]
  | swap x y l =>
    obtain ⟨a, b⟩ := x
    obtain ⟨a', b'⟩ := y
    simp only [List.map_cons, List.count_cons] at hc
    simp only [List.lookup_cons]
    by_cases h1 : n = a
    · subst h1
      by_cases h2 : n = a'
      · subst h2; simp at hc
      · have : (n == a') = false := by simpa using h2
        simp [this]
    · have : (n == a) = false := by simpa using h1
      simp [this]
  | trans h₁ h₂ ih₁ ih₂ =>
    rw [ih₁ hc, ih₂ (by rwa [← (h₁.map Prod.fst).count_eq])]

theorem get?_of_mapped {N : List Bytes} {jm jm' : JMems} (h : (jm.mapped N).Perm (jm'.mapped N))
    {n : Bytes} (hn : n ∈ N) (hc : jm.names.count n ≤ 1) : jm'.get? n = jm.get? n ∧ jm'.names.count n ≤ 1 := by
  unfold JMems.mapped at h
  unfold JMems.get? JMems.names at *
  refine ⟨?_, ?_⟩
  · rw [← lookup_filter hn jm.toList, ← lookup_filter hn jm'.toList]
    exact (lookup_perm h (by rwa [count_filter_names hn])).symm
  · rw [← count_filter_names hn, ← (h.map Prod.fst).count_eq, count_filter_names hn]
    exact hc

/-- Objects that agree in their mapped members are the same value of the class. -/
theorem reads_mapped {Δ : Env} {nm : List Bytes → Bytes → Prop} {ea : Bool} {i : Nat} {ms : List Member} {ex : Bool}
    (hi : Δ i = .obj ms ex) {w w' : Bytes} {jm jm' : JMems} {v : Val} (h : Reads Δ nm ea (.ref i) (.obj w jm) v)
    (hp : (jm.mapped (ms.map Member.name)).Perm (jm'.mapped (ms.map Member.name)))
    (hok : ∀ n ∈ jm'.names, nm (ms.map Member.name) n)
    (hex : (ex || ea) = true → ∀ n ∈ jm'.names, ∃ m ∈ ms, m.name = n) :
    Reads Δ nm ea (.ref i) (.obj w' jm') v := by
  generalize hty : Ty.ref i = ty at h
  generalize hdd : JVal.obj w jm = d at h
  cases h with
  | @obj i' ms' ex' w₀ jm₀ vs hi' hok' honce' hex' hr =>
    cases hty
    cases hdd
    rw [hi] at hi'
    cases hi'
    have key := fun m (hm : m ∈ ms) => get?_of_mapped hp (List.mem_map_of_mem (f := Member.name) hm) (honce' m hm)
    exact .obj hi hok (fun m hm => (key m hm).2) hex (readsMembers_congr hr fun m hm => (key m hm).1)
  | tup => simp at hdd
  | ord => simp at hdd
  | var hi' => cases hty; rw [hi] at hi'; cases hi'
  | ivar hi' => cases hty; rw [hi] at hi'; cases hi'
  | _ => simp at hty

/-- Only a number is read as a real. -/
theorem reads_bareReal {Δ : Env} {nm : List Bytes → Bytes → Prop} {ea : Bool} {d : JVal} (hd : ∀ x, d ≠ .num x) :
    (v : Val) → {ty : Ty} → Reads Δ nm ea ty d v → v.bareReal = false
  | .real r, _, h => by
    cases h with
    | txt h => cases h with | real => exact absurd rfl (hd _)
  | .some v, _, h => by
    cases h with
    | some _ h => exact reads_bareReal hd v h
    | txt h => cases h
  | .alt k v, _, h => by
    cases h with
    | var _ _ _ h => exact reads_bareReal hd v h
    | ivar _ _ _ _ _ _ h => exact reads_bareReal hd v h
    | txt h => cases h
  | .bool _, _, _ | .int _, _, _ | .str _, _, _ | .txt _, _, _ | .date _, _, _ | .lit _, _, _ | .none, _, _ | .arr _, _, _ | .map _, _, _
  | .cls _, _, _ => rfl

theorem endsWell_of {d : JVal} {v : Val} (h : v.bare = false) : EndsWell d v := by
  unfold Val.bare at h
  rw [Bool.or_eq_false_iff] at h
  exact ⟨h.2, fun h' => by rw [h.1] at h'; cases h'⟩

theorem Spec.Reads.endsWell {Δ : Env} {nm : List Bytes → Bytes → Prop} {ea : Bool} {ty : Ty} {d : JVal} {v : Val}
    (h : Reads Δ nm ea ty d v) (hd : ∀ b, d ≠ .str b) (hl : ¬ d.IsLit) : EndsWell d v :=
  ⟨reads_bareLit hd hl v h, fun h' => by
    rw [reads_bareReal (by rintro x rfl; exact hl trivial) v h] at h'; cases h'⟩

theorem Spec.Reads.endsWell_ends {Δ : Env} {nm : List Bytes → Bytes → Prop} {ea : Bool} {ty : Ty} {d : JVal} {v : Val}
    (h : Reads Δ nm ea ty d v) (hd : d.ends v = true) : EndsWell d v := by
  unfold JVal.ends at hd
  rw [Bool.and_eq_true] at hd
  refine ⟨by simpa using hd.2, fun h' => ?_⟩
  rw [reads_bareReal (by rintro x rfl; cases hd.1) v h] at h'
  cases h'

theorem dropNul_ws {k : Bytes} (hk : IsWs k) : dropNul k = k := by
  unfold dropNul
  rw [if_neg]
  intro h
  have := hk 0 (List.mem_of_getLast? h)
  revert this
  unfold isWsByte
  decide

end Verif
