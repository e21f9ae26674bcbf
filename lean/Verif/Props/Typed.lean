import Verif.Proof.TypedTop

/-!
# Properties C21–C24, C43, C46: parsing classes, trailing text, literals

Every theorem holds for a stack that is deep enough (`∃ f0, ∀ f ≥ f0`).
-/

namespace Verif

open Spec

theorem usable_nameOk {t : TCfg} (N : List Bytes) (n : Bytes) (h : Usable t N n) :
    NameOk t N n ∧ (PlainName n ∨ t.escNames = true) := by
  refine ⟨?_, h.1⟩
  rcases h.2 with h | h | h
  · exact Or.inl (by simp [fullMatch, h])
  · exact Or.inl (by simp [fullMatch, hashesCollide, h])
  · exact Or.inr h

theorem dok_of {tc : Bool} {d : JVal} (h : d.WFt tc) (hf : d.Fits) : DOk tc d := ⟨h, hf.depth, hf.size⟩

/-! ## The meaning of documents -/

/-- `from_json` gives the value that the document means.  (Used by several properties below; on its own it says that
parsing is correct on well-typed documents, for every type of the model.) -/
theorem C50_from_json_reads (t : TCfg) (hck : t.cfg.checked = true) (Δ : Env) (henv : EnvOk Δ) (ty : Ty) (d : JVal)
    (v : Val) (hr : Reads Δ (Usable t) t.exactAll ty d v) (hw : d.WF) (hf : d.Fits) (he : EndsWell d v) :
    ∃ f0, ∀ f, f0 ≤ f → fromJson t Δ f ty d.text = .ok v :=
  fromJson_doc hck henv usable_nameOk rfl hr (dok_of hw hf) he

/-! ### A concrete mapping and document

`struct S { int a; optional<bool> b; optional<vector<S>> c; }` and
`{"x":[7] , "c":[{"a":0}],"a": -12}` -/

def exI32 : IntTy := ⟨32, true⟩

/-- The mapping of `S`. -/
def exMs : List Member :=
  [⟨[0x61], .int exI32 false⟩, ⟨[0x62], .opt .bool⟩, ⟨[0x63], .opt (.arr (.ref 0))⟩]

def exEnv : Env := fun _ => .obj exMs false

theorem exEnv_ok : EnvOk exEnv := by
  refine .classes (fun i ms ex h => ?_) (fun i alts h => by cases h)
  cases h
  decide

/-- `-12` -/
def exNum : JVal := .num [0x2D, 0x31, 0x32]
/-- `[{"a":0}]` -/
def exArr : JVal := .arr [] (.cons [] (.obj [] (.cons [] [0x61] [] [] (.num [0x30]) [] .nil)) [] .nil)
/-- `[7]` -/
def exSeven : JVal := .arr [] (.cons [] (.num [0x37]) [] .nil)

/-- The members of the document. -/
def exJm : JMems :=
  .cons [] [0x78] [] [] exSeven [0x20] (.cons [0x20] [0x63] [] [] exArr [] (.cons [] [0x61] [] [0x20] exNum [] .nil))

def exDoc : JVal := .obj [] exJm

/-- The value `S{ -12, {}, { S{ 0, {}, {} } } }`. -/
def exVal : Val := .cls [.int (-12), .none, .some (.arr [.cls [.int 0, .none, .none]])]

theorem exNum_wf : exNum.WF := by
  refine ⟨[0x2D], [0x31, 0x32], [], [], Or.inr rfl, Or.inr ⟨⟨by simp, ?_⟩, by simp⟩, Or.inl rfl, Or.inl rfl, rfl⟩
  simp [IsDig, UInt8.le_iff_toNat_le]

theorem num1_wf {c : UInt8} (h : IsDig c) (h0 : c ≠ 0x30) : (JVal.num [c]).WF :=
  ⟨[], [c], [], [], Or.inl rfl, Or.inr ⟨⟨by simp, by simpa using h⟩, by simpa using h0⟩, Or.inl rfl, Or.inl rfl, rfl⟩

theorem num0_wf : (JVal.num [0x30]).WF :=
  ⟨[], [0x30], [], [], Or.inl rfl, Or.inl rfl, Or.inl rfl, Or.inl rfl, rfl⟩

theorem ws_nil : IsWs [] := by simp [IsWs]
theorem ws_sp : IsWs [0x20] := by simp [IsWs, isWsByte]

theorem name1_wf {c : UInt8} (h : 0x20 ≤ c) (h1 : c ≠ 0x22) (h2 : c ≠ 0x5C) : IsStrBody [c] := .plain h h1 h2 .nil

theorem exSeven_wf : exSeven.WF :=
  ⟨Or.inl ws_nil, ws_nil, num1_wf (by unfold IsDig; decide) (by decide), ws_nil, trivial⟩

theorem exArr_wf : exArr.WF :=
  ⟨Or.inl ws_nil, ws_nil, ⟨Or.inl ws_nil, ws_nil, name1_wf (by decide) (by decide) (by decide), ws_nil, ws_nil, num0_wf, ws_nil,
    trivial⟩, ws_nil, trivial⟩

theorem exDoc_wf : exDoc.WF :=
  ⟨Or.inl ws_nil, ws_nil, name1_wf (by decide) (by decide) (by decide), ws_nil, ws_nil, exSeven_wf, ws_sp,
    ws_sp, name1_wf (by decide) (by decide) (by decide), ws_nil, ws_nil, exArr_wf, ws_nil,
    ws_nil, name1_wf (by decide) (by decide) (by decide), ws_nil, ws_sp, exNum_wf, ws_nil, trivial⟩

theorem exDoc_fits : exDoc.Fits := ⟨by decide, by decide⟩

theorem exUsable (n : Bytes) (h : n = [0x61] ∨ n = [0x63] ∨ n = [0x78]) : Usable {} (exMs.map Member.name) n := by
  refine ⟨Or.inl ?_, Or.inr (Or.inr ?_)⟩
  · rcases h with rfl | rfl | rfl <;> (unfold PlainName; decide)
  · rcases h with rfl | rfl | rfl <;> decide +kernel

theorem exNum_numeral : IsNumeral [0x2D, 0x31, 0x32] (-12) := by
  refine ⟨[0x31, 0x32], rfl, Or.inr ⟨⟨by simp, ?_⟩, by simp⟩, by decide⟩
  simp [IsDig, UInt8.le_iff_toNat_le]

theorem exZero_numeral : IsNumeral [0x30] 0 := ⟨Or.inl rfl, by decide⟩

theorem exDoc_reads : Reads exEnv (Usable {}) false (.ref 0) exDoc exVal := by
  have h0 : Reads exEnv (Usable {}) false (.ref 0)
      (.obj [] (.cons [] [0x61] [] [] (.num [0x30]) [] .nil)) (.cls [.int 0, .none, .none]) := by
    refine .obj (ms := exMs) (ex := false) rfl ?_ (by decide) (by simp) ?_
    · intro n hn
      simp only [JMems.names, JMems.toList, List.map_cons, List.map_nil, List.mem_singleton] at hn
      subst hn
      exact exUsable _ (Or.inl rfl)
    · exact .found (d := .num [0x30]) rfl (.int (by decide) (by decide) exZero_numeral)
        (.absent rfl rfl (.absent rfl rfl .nil))
  refine .obj (ms := exMs) (ex := false) rfl ?_ (by decide) (by simp) ?_
  · intro n hn
    simp only [JMems.names, exJm, JMems.toList, List.map_cons, List.map_nil, List.mem_cons, List.not_mem_nil, or_false] at hn
    rcases hn with rfl | rfl | rfl <;> exact exUsable _ (by simp)
  · refine .found (d := exNum) rfl (.int (by decide) (by decide) exNum_numeral) (.absent rfl rfl ?_)
    refine .found (d := exArr) rfl (.some (by simp [exArr]) (.arr (by simp) ?_)) .nil
    exact .cons h0 .nil

/-- Non-vacuity: the document above. -/
example : ∃ f0, ∀ f, f0 ≤ f → fromJson {} exEnv f (.ref 0) exDoc.text = .ok exVal :=
  C50_from_json_reads {} rfl exEnv exEnv_ok _ _ _ exDoc_reads exDoc_wf exDoc_fits (endsWell_of rfl)

/-- The same, by evaluating the model. -/
example : fromJson {} exEnv 10 (.ref 0) exDoc.text = .ok exVal := by decide +kernel

/-! ## C21 -/

/-- **C21, partial.**  If an object is a value of a class, every arrangement of its members (with other whitespace, if
one likes) is the same value.  Missing: objects with a member of the wrong type, see
`C21_false_for_ill_typed_members`. -/
theorem C21_member_order_partial (t : TCfg) (hck : t.cfg.checked = true) (Δ : Env) (henv : EnvOk Δ) {i : Nat}
    {ms : List Member} {ex : Bool} (hi : Δ i = .obj ms ex) (w w' : Bytes) (jm jm' : JMems) (v : Val)
    (hr : Reads Δ (Usable t) t.exactAll (.ref i) (.obj w jm) v) (hp : jm.toList.Perm jm'.toList)
    (hw : (JVal.obj w jm).WF) (hf : (JVal.obj w jm).Fits) (hw' : (JVal.obj w' jm').WF) (hf' : (JVal.obj w' jm').Fits) :
    ∃ f0, ∀ f, f0 ≤ f → fromJson t Δ f (.ref i) (JVal.obj w jm).text = .ok v ∧
      fromJson t Δ f (.ref i) (JVal.obj w' jm').text = .ok v := by
  obtain ⟨a, ha⟩ := C50_from_json_reads t hck Δ henv _ _ _ hr hw hf (hr.endsWell (by simp) (by simp [JVal.IsLit]))
  have hn : ∀ n, n ∈ jm'.names ↔ n ∈ jm.names := fun n => (hp.map Prod.fst).mem_iff.symm
  have hfacts : (∀ n ∈ jm.names, Usable t (ms.map Member.name) n) ∧
      ((ex || t.exactAll) = true → ∀ n ∈ jm.names, ∃ m ∈ ms, m.name = n) := by
    generalize hty : Ty.ref i = ty at hr
    generalize hdd : JVal.obj w jm = d at hr
    cases hr with
    | obj hi' h1 h2 h3 h4 =>
      cases hty
      cases hdd
      rw [hi] at hi'
      cases hi'
      exact ⟨h1, h3⟩
    | tup => simp at hdd
    | ord => simp at hdd
    | var hi' => cases hty; rw [hi] at hi'; cases hi'
    | ivar hi' => cases hty; rw [hi] at hi'; cases hi'
    | _ => simp at hty
  have hr' := reads_mapped hi (w' := w') hr (hp.filter _) (fun n h => hfacts.1 n ((hn n).1 h))
    (fun he n h => hfacts.2 he n ((hn n).1 h))
  obtain ⟨b, hb⟩ := C50_from_json_reads t hck Δ henv _ _ _ hr' hw' hf' (hr'.endsWell (by simp) (by simp [JVal.IsLit]))
  exact ⟨max a b, fun f hfu => ⟨ha f (by omega), hb f (by omega)⟩⟩

/-- `{"a":-12,"x":[7],"c":[{"a":0}]}`: the members of the sample document in another order. -/
def exJm' : JMems :=
  .cons [] [0x61] [] [] exNum [] (.cons [] [0x78] [] [] exSeven [] (.cons [] [0x63] [] [] exArr [] .nil))

theorem exJm'_wf : (JVal.obj [] exJm').WF :=
  ⟨Or.inl ws_nil, ws_nil, name1_wf (by decide) (by decide) (by decide), ws_nil, ws_nil, exNum_wf, ws_nil,
    ws_nil, name1_wf (by decide) (by decide) (by decide), ws_nil, ws_nil, exSeven_wf, ws_nil,
    ws_nil, name1_wf (by decide) (by decide) (by decide), ws_nil, ws_nil, exArr_wf, ws_nil, trivial⟩

/-- Non-vacuity. -/
example : ∃ f0, ∀ f, f0 ≤ f → fromJson {} exEnv f (.ref 0) exDoc.text = .ok exVal ∧
    fromJson {} exEnv f (.ref 0) (JVal.obj [] exJm').text = .ok exVal :=
  C21_member_order_partial {} rfl exEnv exEnv_ok (ms := exMs) (ex := false) rfl [] [] exJm exJm' exVal exDoc_reads
    ((((List.Perm.swap _ _ _).cons _).trans (List.Perm.swap _ _ _)))
    exDoc_wf exDoc_fits exJm'_wf ⟨by decide, by decide⟩

/-- `struct B { int a; bool b; }` -/
def exEnvB : Env := fun _ => .obj [⟨[0x61], .int exI32 false⟩, ⟨[0x62], .bool⟩] false

/-- C21 does not hold for objects with a member of the wrong type: `{"a":1,"b":"tomato"}` is rejected, but
`{"b":"tomato","a":1}` gives `B{1, true}`. -/
theorem C21_false_for_ill_typed_members :
    fromJson {} exEnvB 9 (.ref 0) (JVal.obj [] (.cons [] [0x61] [] [] (.num [0x31]) []
      (.cons [] [0x62] [] [] (.str [0x74, 0x6F, 0x6D, 0x61, 0x74, 0x6F]) [] .nil))).text = .err .invalidLiteral ∧
    fromJson {} exEnvB 9 (.ref 0) (JVal.obj [] (.cons [] [0x62] [] [] (.str [0x74, 0x6F, 0x6D, 0x61, 0x74, 0x6F]) []
      (.cons [] [0x61] [] [] (.num [0x31]) [] .nil))).text = .ok (.cls [.int 1, .bool true]) := by decide +kernel

/-! ## C22 -/

/-- **C22, partial.**  Two objects that have the same mapped members are the same value of the class, whatever other
members they have and wherever these stand, unless the mapping is exact.  The names of the other members must be
`Usable`: with `ForceFullNameCheck` that is no restriction but for escapes, by default they must not have the hash of a
mapped name, see `C22_false_for_colliding_names`. -/
theorem C22_unknown_members_ignored_partial (t : TCfg) (hck : t.cfg.checked = true) (hea : t.exactAll = false) (Δ : Env)
    (henv : EnvOk Δ) {i : Nat} {ms : List Member} (hi : Δ i = .obj ms false) (w w' : Bytes) (jm jm' : JMems) (v : Val)
    (hr : Reads Δ (Usable t) t.exactAll (.ref i) (.obj w jm) v)
    (hp : jm.mapped (ms.map Member.name) = jm'.mapped (ms.map Member.name))
    (hn : ∀ n ∈ jm'.names, Usable t (ms.map Member.name) n)
    (hw : (JVal.obj w jm).WF) (hf : (JVal.obj w jm).Fits) (hw' : (JVal.obj w' jm').WF) (hf' : (JVal.obj w' jm').Fits) :
    ∃ f0, ∀ f, f0 ≤ f → fromJson t Δ f (.ref i) (JVal.obj w jm).text = .ok v ∧
      fromJson t Δ f (.ref i) (JVal.obj w' jm').text = .ok v := by
  obtain ⟨a, ha⟩ := C50_from_json_reads t hck Δ henv _ _ _ hr hw hf (hr.endsWell (by simp) (by simp [JVal.IsLit]))
  have hr' := reads_mapped hi (w' := w') hr (by rw [hp]) hn (by simp [hea])
  obtain ⟨b, hb⟩ := C50_from_json_reads t hck Δ henv _ _ _ hr' hw' hf' (hr'.endsWell (by simp) (by simp [JVal.IsLit]))
  exact ⟨max a b, fun f hfu => ⟨ha f (by omega), hb f (by omega)⟩⟩

/-- `{"a":-12, "c":[{"a":0}],"x":7}` has the mapped members of `exJm'`, and another unmapped one. -/
def exJm₂ : JMems :=
  .cons [] [0x61] [] [] exNum [] (.cons [0x20] [0x63] [] [] exArr [] (.cons [] [0x78] [] [] (.num [0x37]) [] .nil))

/-- Non-vacuity. -/
example : ∃ f0, ∀ f, f0 ≤ f → fromJson {} exEnv f (.ref 0) (JVal.obj [] exJm').text = .ok exVal ∧
    fromJson {} exEnv f (.ref 0) (JVal.obj [] exJm₂).text = .ok exVal := by
  refine C22_unknown_members_ignored_partial {} rfl rfl exEnv exEnv_ok (ms := exMs) rfl [] [] exJm' exJm₂ exVal ?_
    (by rfl) ?_ exJm'_wf ⟨by decide, by decide⟩ ?_ ⟨by decide, by decide⟩
  · refine reads_mapped (ms := exMs) (ex := false) rfl exDoc_reads
      (List.Perm.filter _ ((((List.Perm.swap _ _ _).cons _).trans (List.Perm.swap _ _ _)))) ?_ (by simp)
    intro n hn
    simp only [JMems.names, exJm', JMems.toList, List.map_cons, List.map_nil, List.mem_cons, List.not_mem_nil, or_false] at hn
    rcases hn with rfl | rfl | rfl <;> exact exUsable _ (by simp)
  · intro n hn
    simp only [JMems.names, exJm₂, JMems.toList, List.map_cons, List.map_nil, List.mem_cons, List.not_mem_nil, or_false] at hn
    rcases hn with rfl | rfl | rfl <;> exact exUsable _ (by simp)
  · exact ⟨Or.inl ws_nil, ws_nil, name1_wf (by decide) (by decide) (by decide), ws_nil, ws_nil, exNum_wf, ws_nil,
      ws_sp, name1_wf (by decide) (by decide) (by decide), ws_nil, ws_nil, exArr_wf, ws_nil,
      ws_nil, name1_wf (by decide) (by decide) (by decide), ws_nil, ws_nil,
      num1_wf (by unfold IsDig; decide) (by decide), ws_nil, trivial⟩

/-- `liquid` -/
def exLiquid : Bytes := [0x6C, 0x69, 0x71, 0x75, 0x69, 0x64]
/-- `costarring` -/
def exCostarring : Bytes := [0x63, 0x6F, 0x73, 0x74, 0x61, 0x72, 0x72, 0x69, 0x6E, 0x67]

/-- `struct L { optional<int> liquid; }` -/
def exEnvL : Env := fun _ => .obj [⟨exLiquid, .opt (.int exI32 false)⟩] false

/-- By default an unmapped member with the hash of a mapped name is taken for the mapped member:
`{"costarring":5}` gives `L{5}` although `{}` gives `L{}`. -/
theorem C22_false_for_colliding_names :
    fromJson {} exEnvL 9 (.ref 0) (JVal.obj [] .nil).text = .ok (.cls [.none]) ∧
    fromJson {} exEnvL 9 (.ref 0) (JVal.obj [] (.cons [] exCostarring [] [] (.num [0x35]) [] .nil)).text
      = .ok (.cls [.some (.int 5)]) := by decide +kernel

/-! ## C23 -/

/-- **C23**, first half.  A class parse succeeds with an optional member absent, giving the empty value. -/
theorem C23_absent_optional_is_empty (t : TCfg) (hck : t.cfg.checked = true) (Δ : Env) (henv : EnvOk Δ) {i : Nat}
    {ms : List Member} {ex : Bool} (hi : Δ i = .obj ms ex) (w : Bytes) (jm : JMems)
    (hn : ∀ n ∈ jm.names, Usable t (ms.map Member.name) n) (honce : ∀ m ∈ ms, jm.names.count m.name ≤ 1)
    (hex : (ex || t.exactAll) = true → ∀ n ∈ jm.names, ∃ m ∈ ms, m.name = n)
    (hread : ∀ m ∈ ms, ∀ d, jm.get? m.name = some d → ∃ v, Reads Δ (Usable t) t.exactAll m.ty d v)
    (hopt : ∀ m ∈ ms, jm.get? m.name = none → m.ty.isOpt = true) (hw : (JVal.obj w jm).WF) (hf : (JVal.obj w jm).Fits) :
    ∃ vs f0, (∀ f, f0 ≤ f → fromJson t Δ f (.ref i) (JVal.obj w jm).text = .ok (.cls vs)) ∧ vs.length = ms.length ∧
      ∀ (p : Nat) (m : Member), ms[p]? = some m → jm.get? m.name = none → vs[p]? = some Val.none := by
  have key : ∀ ms' : List Member, (∀ m ∈ ms', m ∈ ms) →
      ∃ vs, ReadsMembers Δ (Usable t) t.exactAll ms' jm vs ∧ vs.length = ms'.length ∧
        ∀ (p : Nat) (m : Member), ms'[p]? = some m → jm.get? m.name = none → vs[p]? = some Val.none := by
    intro ms'
    induction ms' with
    | nil => exact fun _ => ⟨[], .nil, rfl, by simp⟩
    | cons m ms' ih =>
      intro hsub
      obtain ⟨vs, h1, h2, h3⟩ := ih fun m hm => hsub m (by simp [hm])
      cases hg : jm.get? m.name with
      | some d =>
        obtain ⟨v, hv⟩ := hread m (hsub m (by simp)) d hg
        refine ⟨v :: vs, .found hg hv h1, by simp [h2], ?_⟩
        intro p m' hp hg'
        cases p with
        | zero =>
          simp only [List.getElem?_cons_zero, Option.some.injEq] at hp
          subst hp
          rw [hg] at hg'
          simp at hg'
        | succ p => exact h3 p m' (by simpa using hp) hg'
      | none =>
        refine ⟨.none :: vs, .absent hg (hopt m (hsub m (by simp)) hg) h1, by simp [h2], ?_⟩
        intro p m' hp hg'
        cases p with
        | zero => rfl
        | succ p => exact h3 p m' (by simpa using hp) hg'
  obtain ⟨vs, h1, h2, h3⟩ := key ms fun _ h => h
  obtain ⟨f0, hf0⟩ := C50_from_json_reads t hck Δ henv _ _ _ (.obj (w := w) hi hn honce hex h1) hw hf (endsWell_of rfl)
  exact ⟨vs, f0, hf0, h2, h3⟩

/-- **C23**, second half.  A class parse fails when a member that is not optional is absent. -/
theorem C23_absent_required_is_an_error (t : TCfg) (hck : t.cfg.checked = true) (Δ : Env) (henv : EnvOk Δ) {i : Nat}
    {ms : List Member} {ex : Bool} (hi : Δ i = .obj ms ex) (w : Bytes) (jm : JMems)
    (hn : ∀ n ∈ jm.names, Usable t (ms.map Member.name) n) (honce : ∀ m ∈ ms, jm.names.count m.name ≤ 1)
    (hex : (ex || t.exactAll) = true → ∀ n ∈ jm.names, ∃ m ∈ ms, m.name = n)
    (hread : ∀ m ∈ ms, ∀ d, jm.get? m.name = some d → ∃ v, Reads Δ (Usable t) t.exactAll m.ty d v)
    (m : Member) (hm : m ∈ ms) (ho : m.ty.isOpt = false) (hg : m.name ∉ jm.names)
    (hw : (JVal.obj w jm).WF) (hf : (JVal.obj w jm).Fits) :
    ∃ f0, ∀ f, f0 ≤ f → fromJson t Δ f (.ref i) (JVal.obj w jm).text = .err .missingMember :=
  fromJson_missing hck henv usable_nameOk rfl hi (dok_of hw hf) hn honce hex hread hm ho (JMems_get?_none.2 hg)

/-- Non-vacuity of the first half: `{}` is `L{}`. -/
example : ∃ vs f0, (∀ f, f0 ≤ f → fromJson {} exEnvL f (.ref 0) (JVal.obj [] .nil).text = .ok (.cls vs)) ∧
    vs.length = 1 ∧ ∀ (p : Nat) (m : Member), [Member.mk exLiquid (.opt (.int exI32 false))][p]? = some m →
      JMems.nil.get? m.name = none → vs[p]? = some Val.none :=
  C23_absent_optional_is_empty {} rfl exEnvL (.classes (by intro i ms ex h; cases h; decide) (by intro i alts h; cases h)) (ms := [⟨exLiquid, _⟩]) (ex := false) rfl
    [] .nil (by simp [JMems.names, JMems.toList]) (by simp [JMems.names, JMems.toList]) (by simp)
    (by simp [JMems.get?, JMems.toList]) (by simp [Ty.isOpt]) ⟨Or.inl ws_nil, trivial⟩ ⟨by decide, by decide⟩

/-- Non-vacuity of the second half: `{"x":7}` has no member `a`. -/
example : ∃ f0, ∀ f, f0 ≤ f →
    fromJson {} exEnv f (.ref 0) (JVal.obj [] (.cons [] [0x78] [] [] (.num [0x37]) [] .nil)).text
      = .err .missingMember := by
  refine C23_absent_required_is_an_error {} rfl exEnv exEnv_ok (ms := exMs) (ex := false) rfl [] _ ?_ (by decide) (by simp)
    ?_ ⟨[0x61], .int exI32 false⟩ (by decide) rfl (by decide)
    ⟨Or.inl ws_nil, ws_nil, name1_wf (by decide) (by decide) (by decide), ws_nil, ws_nil,
      num1_wf (by unfold IsDig; decide) (by decide), ws_nil, trivial⟩ ⟨by decide, by decide⟩
  · intro n hn
    simp only [JMems.names, JMems.toList, List.map_cons, List.map_nil, List.mem_singleton] at hn
    subst hn
    exact exUsable _ (by simp)
  · intro m hm d hd
    simp only [exMs, List.mem_cons, List.not_mem_nil, or_false] at hm
    rcases hm with rfl | rfl | rfl <;> simp [JMems.get?, JMems.toList, List.lookup] at hd

/-! ## C24 -/

/-- **C24.**  When names are compared in full, a document member is bound to a mapped member (one of those from `pos` on
that are still looked for) iff it has the name of one; and it is bound to one with that name. -/
theorem C24_full_name_lookup_exact (t : TCfg) (N : List Bytes) (pos : Nat) (n : Bytes) (hp : pos ≤ N.length)
    (hfull : t.forceFull = true ∨ ¬ (N.map (nameHash false)).Nodup) :
    (findName t N pos n < N.length ↔ n ∈ N.drop pos) ∧
    (∀ k, findName t N pos n = k → k < N.length → pos ≤ k ∧ N[k]? = some n) := by
  have hm : fullMatch t N = true := by
    rcases hfull with h | h
    · simp [fullMatch, h]
    · simp [fullMatch, hashesCollide, h]
  have key : ∀ (M : List Bytes) (j : Nat),
      (n ∈ M → findFrom true (nameHash false n) n j M < j + M.length) ∧
      (n ∉ M → findFrom true (nameHash false n) n j M = j + M.length) ∧
      (∀ k, findFrom true (nameHash false n) n j M = k → k < j + M.length → j ≤ k ∧ M[k - j]? = some n) := by
    intro M
    induction M with
    | nil => intro j; simp [findFrom]
    | cons m M ih =>
      intro j
      obtain ⟨h1, h2, h3⟩ := ih (j + 1)
      unfold findFrom
      by_cases hc : n = m
      · subst hc
        simp
      · rw [if_neg (by rintro ⟨-, h | h⟩ <;> simp_all)]
        refine ⟨fun h => ?_, fun h => ?_, fun k hk hlt => ?_⟩
        · have := h1 (by simpa [hc] using h)
          simp only [List.length_cons]; omega
        · rw [h2 (by simp at h; exact h.2)]
          simp only [List.length_cons]; omega
        · simp only [List.length_cons] at hlt
          obtain ⟨h4, h5⟩ := h3 k hk (by omega)
          refine ⟨by omega, ?_⟩
          rw [show k - j = (k - (j + 1)) + 1 by omega]
          simpa using h5
  unfold findName
  rw [nameHash_long, hm]
  obtain ⟨h1, h2, h3⟩ := key (N.drop pos) pos
  have hl : pos + (N.drop pos).length = N.length := by rw [List.length_drop]; omega
  rw [hl] at h1 h2 h3
  refine ⟨⟨fun h => ?_, h1⟩, fun k hk hlt => ?_⟩
  · by_cases hn : n ∈ N.drop pos
    · exact hn
    · rw [h2 hn] at h; omega
  · obtain ⟨h4, h5⟩ := h3 k hk hlt
    refine ⟨h4, ?_⟩
    rw [List.getElem?_drop, show pos + (k - pos) = k by omega] at h5
    exact h5

/-- Non-vacuity: with full comparison `costarring` is not `liquid`; `liquid` is found. -/
example : findName { forceFull := true } [exLiquid] 0 exCostarring = 1 ∧
    findName { forceFull := true } [exLiquid] 0 exLiquid = 0 := by decide +kernel
example : findName {} [exLiquid, exCostarring] 0 exCostarring = 1 := by decide +kernel

/-- Without full comparison a name with the same hash is taken for the mapped one. -/
theorem C24_hash_only_lookup_is_not_exact : findName {} [exLiquid] 0 exCostarring = 0 := by decide +kernel

/-! ## C43 -/

/-- What the library takes for whitespace: the bytes 0x01 to 0x20. -/
def Spec.LibSpace (w : Bytes) : Prop := ∀ c ∈ w, 0x01 ≤ c ∧ c ≤ 0x20

theorem trimChecked_nil_iff (k : Bytes) : trimChecked k = [] ↔ LibSpace k := by
  have hb : ∀ c : UInt8, isSpace c = true ↔ 0x01 ≤ c ∧ c ≤ 0x20 :=
    fun c => forall_uint8 (P := fun c => isSpace c = true ↔ 0x01 ≤ c ∧ c ≤ 0x20) (by decide +kernel) c
  induction k with
  | nil => simp [trimChecked, LibSpace]
  | cons c cs ih =>
    unfold trimChecked
    constructor
    · intro h
      split at h
      · rename_i hc
        intro x hx
        rcases List.mem_cons.1 hx with rfl | hx
        · exact (hb _).1 hc
        · exact ih.1 h x hx
      · simp at h
    · intro h
      rw [if_pos ((hb c).2 (h c (by simp)))]
      exact ih.2 fun x hx => h x (by simp [hx])

/-- **C43, partial.**  A value followed by any text `k` (a number or literal: by something that ends it).  Without
`MustVerifyEndOfDataIsValid` the result does not depend on `k`; with it, parsing succeeds iff `k` is whitespace, but for a
final NUL.  Missing: whitespace is what the library takes for it, which is more than JSON does
(`C43_control_characters_pass`), and literals followed by other text (`C43_literal_false`). -/
theorem C43_trailing_text_partial (t : TCfg) (hck : t.cfg.checked = true) (Δ : Env) (henv : EnvOk Δ) (ty : Ty) (d : JVal)
    (v : Val) (hr : Reads Δ (Usable t) t.exactAll ty d v) (hw : d.WF) (hf : d.Fits) (k : Bytes)
    (hk : d.ends v = true ∨ AfterValue k) (he : dropNul k = [] → EndsWell d v) :
    ∃ f0, ∀ f, f0 ≤ f →
      (t.verifyEnd = false → fromJson t Δ f ty (d.text ++ k) = .ok v) ∧
      (t.verifyEnd = true → LibSpace (dropNul k) → fromJson t Δ f ty (d.text ++ k) = .ok v) ∧
      (t.verifyEnd = true → ¬ LibSpace (dropNul k) → fromJson t Δ f ty (d.text ++ k) = .err .invalidEndOfValue) := by
  obtain ⟨f0, hf0⟩ := fromJson_reads hck henv usable_nameOk rfl hr (dok_of hw hf) k
    (fun hc => hk.resolve_left (by simp [hc])) he
  refine ⟨f0, fun f hfu => ?_⟩
  rw [hf0 f hfu]
  have hs := trimChecked_nil_iff (dropNul k)
  refine ⟨fun h => by simp [h], fun h h' => by simp [hs.2 h'], fun h h' => ?_⟩
  rw [if_pos ⟨h, fun hc => h' (hs.1 hc)⟩]

/-- Non-vacuity: the sample document followed by ` x`. -/
example : ∃ f0, ∀ f, f0 ≤ f →
    fromJson { verifyEnd := true } exEnv f (.ref 0) (exDoc.text ++ [0x20, 0x78]) = .err .invalidEndOfValue := by
  have hu : ∀ N n, Usable {} N n ↔ Usable { verifyEnd := true } N n := fun N n => Iff.rfl
  obtain ⟨f0, h⟩ := C43_trailing_text_partial { verifyEnd := true } rfl exEnv exEnv_ok _ _ _ exDoc_reads exDoc_wf exDoc_fits
    [0x20, 0x78] (Or.inl rfl) (fun _ => endsWell_of rfl)
  exact ⟨f0, fun f hf => (h f hf).2.2 rfl (by simp [LibSpace, dropNul, UInt8.le_iff_toNat_le])⟩

/-- `MustVerifyEndOfDataIsValid` lets control characters pass as whitespace: `[]` followed by 0x01. -/
theorem C43_control_characters_pass :
    fromJson { verifyEnd := true } exEnv 9 (.arr .bool) [0x5B, 0x5D, 0x01] = .ok (.arr []) := by decide +kernel

/-- Without `MustVerifyEndOfDataIsValid` the text after a literal does have an influence: `true x` is rejected. -/
theorem C43_literal_false :
    fromJson {} exEnv 9 .bool [0x74, 0x72, 0x75, 0x65] = .ok (.bool true) ∧
    fromJson {} exEnv 9 .bool [0x74, 0x72, 0x75, 0x65, 0x20, 0x78] = .err .invalidEndOfValue := by decide +kernel

/-! ## C46 -/

/-- Bytes the library lets follow a literal: punctuation that ends a value, `:`, whitespace and NUL, and everything
outside ASCII. -/
def Spec.EndsLiteral (c : UInt8) : Prop :=
  c = 0x2C ∨ c = 0x5D ∨ c = 0x7D ∨ c = 0x3A ∨ c ≤ 0x20 ∨ 0x80 ≤ c

theorem atEndOfItem_iff (c : UInt8) : atEndOfItem c = true ↔ EndsLiteral c := by
  unfold EndsLiteral
  exact forall_uint8 (P := fun c => atEndOfItem c = true ↔ (c = 0x2C ∨ c = 0x5D ∨ c = 0x7D ∨ c = 0x3A ∨ c ≤ 0x20 ∨ 0x80 ≤ c))
    (by decide +kernel) c

theorem endOfItem_iff (k : Bytes) : endOfItem k = true ↔ (∀ c, k.head? = some c → EndsLiteral c) := by
  cases k with
  | nil => simp [endOfItem]
  | cons c cs => simp [endOfItem, atEndOfItem_iff]

theorem isPrefixOf_iff (p bs : Bytes) : p.isPrefixOf bs = true ↔ ∃ k, bs = p ++ k := by
  rw [List.isPrefixOf_iff_prefix]
  exact ⟨fun ⟨k, h⟩ => ⟨k, h.symm⟩, fun ⟨k, h⟩ => ⟨k, h.symm⟩⟩

/-- **C46** for booleans, on every byte string: a bool is parsed iff the text is `true` or `false`, then whitespace `w`, then
the end of the text or something that ends a literal; and the value is the literal written. -/
theorem C46_bool_exact_partial (t : TCfg) (hck : t.cfg.checked = true) (Δ : Env) (f : Nat) (bs : Bytes) (v : Val) (r : Bytes) :
    parseU t Δ (f + 1) .bool bs = .ok (v, r) ↔
      ∃ b w, bs = (if b then [0x74, 0x72, 0x75, 0x65] else [0x66, 0x61, 0x6C, 0x73, 0x65]) ++ (w ++ r) ∧
        v = .bool b ∧ LibSpace w ∧ (∀ c, r.head? = some c → EndsLiteral c ∧ ¬ LibSpace [c]) := by
  have hdec : ∀ k r : Bytes, (trimChecked k = r ∧ endOfItem r = true) ↔
      ∃ w, k = w ++ r ∧ LibSpace w ∧ ∀ c, r.head? = some c → EndsLiteral c ∧ ¬ LibSpace [c] := by
    intro k r
    have hsp : ∀ c, isSpace c = true ↔ LibSpace [c] := by
      intro c
      have := trimChecked_nil_iff [c]
      rw [← this]
      simp [trimChecked]
    constructor
    · rintro ⟨rfl, he⟩
      obtain ⟨w, hw, hk⟩ := trimEq_trimChecked k
      refine ⟨w, hk, fun c hc => (hsp c).1 (hw c hc) c (by simp), fun c hc => ⟨(endOfItem_iff _).1 he c hc, ?_⟩⟩
      rw [← hsp]
      intro hcs
      have h2 : trimChecked (trimChecked k) = trimChecked k := trimChecked_idem k
      cases hh : trimChecked k with
      | nil => rw [hh] at hc; simp at hc
      | cons x xs =>
        rw [hh] at hc h2
        simp only [List.head?_cons, Option.some.injEq] at hc
        subst hc
        have h3 := (trimChecked_suffix xs).length_le
        rw [trimChecked, if_pos hcs] at h2
        rw [h2] at h3
        simp at h3
    · rintro ⟨w, rfl, hw, hr⟩
      refine ⟨?_, (endOfItem_iff _).2 fun c hc => (hr c hc).1⟩
      rw [trimChecked_sp w r (fun c hc => (hsp c).2 (by intro x hx; simp at hx; subst hx; exact hw x hc))]
      cases r with
      | nil => rfl
      | cons c cs =>
        have := (hr c rfl).2
        rw [← hsp] at this
        exact trimChecked_cons_of_not _ (by simpa using this)
  have hpb : ∀ b, parseBool t.cfg bs = .ok (b, r) ↔
      ∃ k, bs = (if b then [0x74, 0x72, 0x75, 0x65] else [0x66, 0x61, 0x6C, 0x73, 0x65]) ++ k ∧
        trimChecked k = r ∧ endOfItem r = true := by
    intro b
    unfold parseBool eatBool
    rw [if_pos hck]
    by_cases ht : (txtTrue).isPrefixOf bs = true
    · rw [if_pos ht]
      obtain ⟨k, rfl⟩ := (isPrefixOf_iff _ _).1 ht
      simp only [Res.ok_bind, trim_ck hck, hck, assertWeak_checked, List.cons_append, List.nil_append, List.drop_succ_cons,
        List.drop_zero]
      cases b with
      | true =>
        simp only [if_true, List.cons_append, List.nil_append, List.cons.injEq, true_and]
        cases he : endOfItem (trimChecked k) with
        | true =>
          simp only [ensure_true, Res.ok_bind, Res.ok.injEq, Prod.mk.injEq, true_and]
          constructor
          · rintro rfl; exact ⟨k, rfl, rfl, he⟩
          · rintro ⟨k', rfl, h, -⟩; exact h
        | false =>
          simp only [ensure, Bool.false_eq_true, if_false, Res.err_bind, reduceCtorEq, false_iff]
          rintro ⟨k', rfl, rfl, h⟩
          simp [he] at h
      | false =>
        simp only [Bool.false_eq_true, if_false, List.cons_append, List.nil_append]
        constructor
        · intro h
          rw [Res.bind_eq_ok] at h
          obtain ⟨_, -, h⟩ := h
          simp at h
        · rintro ⟨k', h, -⟩
          simp at h
    · rw [if_neg ht]
      by_cases hfl : (txtFalse).isPrefixOf bs = true
      · rw [if_pos hfl]
        obtain ⟨k, rfl⟩ := (isPrefixOf_iff _ _).1 hfl
        simp only [Res.ok_bind, trim_ck hck, hck, assertWeak_checked, List.cons_append, List.nil_append, List.drop_succ_cons,
          List.drop_zero]
        cases b with
        | false =>
          simp only [Bool.false_eq_true, if_false, List.cons_append, List.nil_append, List.cons.injEq, true_and]
          cases he : endOfItem (trimChecked k) with
          | true =>
            simp only [ensure_true, Res.ok_bind, Res.ok.injEq, Prod.mk.injEq, true_and]
            constructor
            · rintro rfl; exact ⟨k, rfl, rfl, he⟩
            · rintro ⟨k', rfl, h, -⟩; exact h
          | false =>
            simp only [ensure, Bool.false_eq_true, if_false, Res.err_bind, reduceCtorEq, false_iff]
            rintro ⟨k', rfl, rfl, h⟩
            simp [he] at h
        | true =>
          simp only [if_true, List.cons_append, List.nil_append]
          constructor
          · intro h
            rw [Res.bind_eq_ok] at h
            obtain ⟨_, -, h⟩ := h
            simp at h
          · rintro ⟨k', h, -⟩
            simp at h
      · rw [if_neg hfl]
        simp only [Res.err_bind, reduceCtorEq, false_iff]
        rintro ⟨k, rfl, -⟩
        cases b with
        | true => exact ht ((isPrefixOf_iff _ _).2 ⟨k, rfl⟩)
        | false => exact hfl ((isPrefixOf_iff _ _).2 ⟨k, rfl⟩)
  unfold parseU
  rw [Res.bind_eq_ok]
  constructor
  · rintro ⟨⟨b, r'⟩, h1, h2⟩
    simp only [Res.ok.injEq, Prod.mk.injEq] at h2
    obtain ⟨rfl, rfl⟩ := h2
    obtain ⟨k, hk, h3⟩ := (hpb b).1 h1
    obtain ⟨w, rfl, hw, hr⟩ := (hdec k r').1 h3
    exact ⟨b, w, hk, rfl, hw, hr⟩
  · rintro ⟨b, w, rfl, rfl, hw, hr⟩
    exact ⟨(b, r), (hpb b).2 ⟨w ++ r, rfl, (hdec _ _).2 ⟨w, rfl, hw, hr⟩⟩, rfl⟩

/-- Non-vacuity: `true ,1` is parsed, `trueish`, `True` and `tru` are not. -/
example : parseU {} exEnv 1 .bool [0x74, 0x72, 0x75, 0x65, 0x20, 0x2C, 0x31] = .ok (.bool true, [0x2C, 0x31]) := by
  decide +kernel
example : (parseU {} exEnv 1 .bool [0x74, 0x72, 0x75, 0x65, 0x69, 0x73, 0x68]).isOk = false := by decide +kernel

/-- **C46** for `null`, on every byte string: a nullable value is empty iff the text is `null` followed by the end of
the text or something that ends a literal — or there is no value at all, only the end of the text or `,`, `]`, `}`. -/
theorem C46_null_exact_partial (t : TCfg) (hck : t.cfg.checked = true) (Δ : Env) (f : Nat) (ty : Ty) (bs : Bytes) :
    (∃ r, parseU t Δ (f + 1) (.opt ty) bs = .ok (.none, r)) ↔
      (∃ k, bs = [0x6E, 0x75, 0x6C, 0x6C] ++ k ∧ ∀ c, k.head? = some c → EndsLiteral c) ∨
      bs = [] ∨ (∃ c k, bs = c :: k ∧ (c = 0x2C ∨ c = 0x5D ∨ c = 0x7D)) := by
  have htok : headIs isTokenAfterValue bs = true ↔ ∃ c k, bs = c :: k ∧ (c = 0x2C ∨ c = 0x5D ∨ c = 0x7D) := by
    cases bs with
    | nil => simp [headIs]
    | cons c k =>
      simp only [headIs, isTokenAfterValue, Bool.or_eq_true, beq_iff_eq, List.cons.injEq]
      constructor
      · rintro ((h | h) | h)
        · exact ⟨c, k, ⟨rfl, rfl⟩, Or.inl h⟩
        · exact ⟨c, k, ⟨rfl, rfl⟩, Or.inr (Or.inr h)⟩
        · exact ⟨c, k, ⟨rfl, rfl⟩, Or.inr (Or.inl h)⟩
      · rintro ⟨_, _, ⟨rfl, rfl⟩, h | h | h⟩ <;> simp [h]
  unfold parseU eatNull
  by_cases h0 : (bs.isEmpty || headIs isTokenAfterValue bs) = true
  · rw [if_pos h0]
    simp only [Res.ok_bind, Res.ok.injEq, Prod.mk.injEq, true_and, exists_eq', true_iff]
    right
    rw [Bool.or_eq_true] at h0
    rcases h0 with h | h
    · left; simpa using h
    · right; exact htok.1 h
  · rw [if_neg h0, if_pos hck]
    simp only [Bool.or_eq_true, not_or, htok] at h0
    by_cases hn : (txtNull).isPrefixOf bs = true
    · rw [if_pos hn]
      obtain ⟨k, rfl⟩ := (isPrefixOf_iff _ _).1 hn
      simp only [List.cons_append, List.nil_append, List.drop_succ_cons, List.drop_zero, List.cons.injEq, true_and]
      cases he : endOfItem k with
      | true =>
        simp only [ensure_true, Res.ok_bind, Res.ok.injEq, Prod.mk.injEq, true_and, exists_eq', true_iff]
        exact Or.inl ⟨k, rfl, (endOfItem_iff _).1 he⟩
      | false =>
        simp only [ensure, Bool.false_eq_true, if_false, Res.err_bind, reduceCtorEq, exists_const, false_iff]
        rintro (⟨k', rfl, h⟩ | h | ⟨c, k', ⟨rfl, -⟩, h⟩)
        · rw [(endOfItem_iff _).2 h] at he; simp at he
        · simp at h
        · revert h; decide
    · rw [if_neg hn]
      simp only [Res.ok_bind]
      constructor
      · rintro ⟨r, h⟩
        rw [Res.bind_eq_ok] at h
        obtain ⟨_, -, h⟩ := h
        simp at h
      · rintro (⟨k, rfl, -⟩ | h | h)
        · exact absurd ((isPrefixOf_iff _ _).2 ⟨k, rfl⟩) hn
        · exact absurd (by simpa using h) h0.1
        · exact absurd h h0.2

/-- Non-vacuity: `null}` is the empty value; `nulls` is not. -/
example : parseU {} exEnv 2 (.opt .bool) [0x6E, 0x75, 0x6C, 0x6C, 0x7D] = .ok (.none, [0x7D]) := by decide +kernel
example : (parseU {} exEnv 2 (.opt .bool) [0x6E, 0x75, 0x6C, 0x6C, 0x73]).isOk = false := by decide +kernel

/-- A missing value passes for an empty one: `{"liquid":}` gives `L{}`. -/
theorem C46_missing_value_is_null :
    fromJson {} exEnvL 9 (.ref 0) ([0x7B, 0x22] ++ exLiquid ++ [0x22, 0x3A, 0x7D]) = .ok (.cls [.none]) := by decide +kernel

/-- A member found out of order is a bool if its value, a string for instance, starts with `t` or `f`: see
`C21_false_for_ill_typed_members`. -/
theorem C46_bool_out_of_order_false :
    fromJson {} exEnvB 9 (.ref 0) (JVal.obj [] (.cons [] [0x62] [] [] (.str [0x74]) []
      (.cons [] [0x61] [] [] (.num [0x31]) [] .nil))).text = .ok (.cls [.int 1, .bool true]) := by decide +kernel

end Verif
