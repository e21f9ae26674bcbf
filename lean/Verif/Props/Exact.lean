import Verif.Proof.Exact
import Verif.Props.Variant
import Verif.Props.ZeroTerm

/-!
# Properties C78 and C79: what is not mapped, and C23 for documents in a `std::string`

A class may be declared `exact_class_mapping`, and the option `UseExactMappingsByDefault` does so for all classes: then
members (elements of a tuple or of a class stored in an array) that are not mapped are errors.  Otherwise they are
ignored.
-/

namespace Verif

open Spec

/-! ## C23 -/

/-- **C23** for `std::string`, first half.  A class parse succeeds with an optional member absent, giving the empty
value. -/
theorem C23_std_string_absent_optional (t : TCfg) (hck : t.cfg.checked = true) (Δ : Env) (henv : EnvOk Δ) {i : Nat}
    {ms : List Member} {ex : Bool} (hi : Δ i = .obj ms ex) (w : Bytes) (jm : JMems)
    (hn : ∀ n ∈ jm.names, Usable t (ms.map Member.name) n) (honce : ∀ m ∈ ms, jm.names.count m.name ≤ 1)
    (hex : (ex || t.exactAll) = true → ∀ n ∈ jm.names, ∃ m ∈ ms, m.name = n)
    (hread : ∀ m ∈ ms, ∀ d, jm.get? m.name = some d → ∃ v, Reads Δ (Usable t) t.exactAll m.ty d v)
    (hopt : ∀ m ∈ ms, jm.get? m.name = none → m.ty.isOpt = true) (hw : (JVal.obj w jm).WF) (hf : (JVal.obj w jm).Fits) :
    ∃ vs f0, (∀ f, f0 ≤ f → fromJsonZ t Δ f (.ref i) (JVal.obj w jm).text = .ok (.cls vs)) ∧ vs.length = ms.length ∧
      ∀ (p : Nat) (m : Member), ms[p]? = some m → jm.get? m.name = none → vs[p]? = some Val.none := by
  have key : ∀ ms' : List Member, (∀ m ∈ ms', m ∈ ms) →
      ∃ vs, ReadsMembers Δ (Usable t) t.exactAll ms' jm vs ∧ vs.length = ms'.length ∧
        ∀ (p : Nat) (m : Member), ms'[p]? = some m → jm.get? m.name = none → vs[p]? = some Val.none := by
    intro ms'
    induction ms' with
    | nil => exact fun _ => ⟨[], .nil, rfl, by simp⟩
    | cons m ms' ih =>
      intro hsub
      obtain ⟨vs, h1, h2, h3⟩ := ih fun m hm => hsub m (by simp [hm])
      cases hg : jm.get? m.name with
      | some d =>
        obtain ⟨v, hv⟩ := hread m (hsub m (by simp)) d hg
        refine ⟨v :: vs, .found hg hv h1, by simp [h2], ?_⟩
        intro p m' hp hg'
        cases p with
        | zero =>
          simp only [List.getElem?_cons_zero, Option.some.injEq] at hp
          subst hp
          rw [hg] at hg'
          simp at hg'
        | succ p => exact h3 p m' (by simpa using hp) hg'
      | none =>
        refine ⟨.none :: vs, .absent hg (hopt m (hsub m (by simp)) hg) h1, by simp [h2], ?_⟩
        intro p m' hp hg'
        cases p with
        | zero => rfl
        | succ p => exact h3 p m' (by simpa using hp) hg'
  obtain ⟨vs, h1, h2, h3⟩ := key ms fun _ h => h
  obtain ⟨f0, hf0⟩ := C62_std_string_reads t hck Δ henv _ _ _ (.obj (w := w) hi hn honce hex h1) hw hf (fun _ => rfl)
  exact ⟨vs, f0, hf0, h2, h3⟩

/-- **C23** for `std::string`, second half.  A class parse fails when a member that is not optional is absent. -/
theorem C23_std_string_absent_required (t : TCfg) (hck : t.cfg.checked = true) (Δ : Env) (henv : EnvOk Δ) {i : Nat}
    {ms : List Member} {ex : Bool} (hi : Δ i = .obj ms ex) (w : Bytes) (jm : JMems)
    (hn : ∀ n ∈ jm.names, Usable t (ms.map Member.name) n) (honce : ∀ m ∈ ms, jm.names.count m.name ≤ 1)
    (hex : (ex || t.exactAll) = true → ∀ n ∈ jm.names, ∃ m ∈ ms, m.name = n)
    (hread : ∀ m ∈ ms, ∀ d, jm.get? m.name = some d → ∃ v, Reads Δ (Usable t) t.exactAll m.ty d v)
    (m : Member) (hm : m ∈ ms) (ho : m.ty.isOpt = false) (hg : m.name ∉ jm.names)
    (hw : (JVal.obj w jm).WF) (hf : (JVal.obj w jm).Fits) :
    ∃ f0, ∀ f, f0 ≤ f → fromJsonZ t Δ f (.ref i) (JVal.obj w jm).text = .err .missingMember :=
  fromJsonZ_missing hck henv usable_nameOk rfl hi (dok_of hw hf) hn honce hex hread hm ho (JMems_get?_none.2 hg)

/-- Non-vacuity of the first half: `{}` is `L{}`. -/
example : ∃ vs f0, (∀ f, f0 ≤ f → fromJsonZ {} exEnvL f (.ref 0) (JVal.obj [] .nil).text = .ok (.cls vs)) ∧
    vs.length = 1 ∧ ∀ (p : Nat) (m : Member), [Member.mk exLiquid (.opt (.int exI32 false))][p]? = some m →
      JMems.nil.get? m.name = none → vs[p]? = some Val.none :=
  C23_std_string_absent_optional {} rfl exEnvL (.classes (by intro i ms ex h; cases h; decide) (by intro i alts h; cases h)) (ms := [⟨exLiquid, _⟩]) (ex := false) rfl
    [] .nil (by simp [JMems.names, JMems.toList]) (by simp [JMems.names, JMems.toList]) (by simp)
    (by simp [JMems.get?, JMems.toList]) (by simp [Ty.isOpt]) ⟨Or.inl ws_nil, trivial⟩ ⟨by decide, by decide⟩

/-- `{"x":7}` -/
def exX7 : JMems := .cons [] [0x78] [] [] (.num [0x37]) [] .nil

theorem exX7_usable : ∀ n ∈ exX7.names, Usable {} (exMs.map Member.name) n := by
  intro n hn
  simp only [exX7, JMems.names, JMems.toList, List.map_cons, List.map_nil, List.mem_singleton] at hn
  subst hn
  exact exUsable _ (by simp)

theorem exX7_wf : (JVal.obj [] exX7).WF :=
  ⟨Or.inl ws_nil, ws_nil, name1_wf (by decide) (by decide) (by decide), ws_nil, ws_nil,
    num1_wf (by unfold IsDig; decide) (by decide), ws_nil, trivial⟩

theorem exX7_get : ∀ m ∈ exMs, ∀ d, exX7.get? m.name ≠ some d := by
  intro m hm d hd
  simp only [exMs, List.mem_cons, List.not_mem_nil, or_false] at hm
  rcases hm with rfl | rfl | rfl <;> simp [exX7, JMems.get?, JMems.toList, List.lookup] at hd

/-- Non-vacuity of the second half: `{"x":7}` has no member `a`. -/
example : ∃ f0, ∀ f, f0 ≤ f → fromJsonZ {} exEnv f (.ref 0) (JVal.obj [] exX7).text = .err .missingMember :=
  C23_std_string_absent_required {} rfl exEnv exEnv_ok (ms := exMs) (ex := false) rfl [] _ exX7_usable (by decide) (by simp)
    (fun m hm d h => absurd h (exX7_get m hm d)) ⟨[0x61], .int exI32 false⟩ (by decide) rfl (by decide) exX7_wf ⟨by decide, by decide⟩

/-! ## C78 -/

/-- **C78**, classes.  A class with an exact mapping is not read from an object that has a member that is not mapped,
wherever it stands and whatever else the object has. -/
theorem C78_unmapped_member_partial (t : TCfg) (hck : t.cfg.checked = true) (Δ : Env) (henv : EnvOk Δ) {i : Nat}
    {ms : List Member} {ex : Bool} (hi : Δ i = .obj ms ex) (hex : ex = true ∨ t.exactAll = true) (w : Bytes) (jm : JMems)
    (hn : ∀ n ∈ jm.names, Usable t (ms.map Member.name) n) (honce : ∀ m ∈ ms, jm.names.count m.name ≤ 1)
    (hread : ∀ m ∈ ms, ∀ d, jm.get? m.name = some d → ∃ v, Reads Δ (Usable t) t.exactAll m.ty d v)
    (n : Bytes) (hnj : n ∈ jm.names) (hnm : ∀ m ∈ ms, m.name ≠ n)
    (hw : (JVal.obj w jm).WF) (hf : (JVal.obj w jm).Fits) :
    ∃ f0, ∀ f, f0 ≤ f → fromJson t Δ f (.ref i) (JVal.obj w jm).text = .err .unknownMember ∧
      fromJsonZ t Δ f (.ref i) (JVal.obj w jm).text = .err .unknownMember := by
  have hex' : (ex || t.exactAll) = true := by simpa using hex
  have hun : ∃ n ∈ jm.names, n ∉ ms.map Member.name := ⟨n, hnj, fun h => by
    obtain ⟨m, hm, he⟩ := List.mem_map.1 h
    exact hnm m hm he⟩
  obtain ⟨f0, hf0⟩ := fromJson_unknown hck henv usable_nameOk rfl hi hex' (dok_of hw hf) hn honce hread hun
  obtain ⟨f1, hf1⟩ := fromJsonZ_unknown hck henv usable_nameOk rfl hi hex' (dok_of hw hf) hn honce hread hun
  exact ⟨max f0 f1, fun f hfu => ⟨hf0 f (by omega), hf1 f (by omega)⟩⟩

/-- **C78**, tuples.  A tuple with an exact mapping is not read from an array with more elements. -/
theorem C78_extra_element_of_tuple_partial (t : TCfg) (hck : t.cfg.checked = true) (Δ : Env) (henv : EnvOk Δ) {i : Nat}
    {ts : List Ty} {ex : Bool} (hi : Δ i = .tup ts ex) (hex : ex = true ∨ t.exactAll = true) (w : Bytes) (es : JElems)
    (hl : ts.length < es.toList.length)
    (hread : ∀ (p : Nat) (ty : Ty) (d : JVal), ts[p]? = some ty → es.toList[p]? = some d →
      ∃ v, Reads Δ (Usable t) t.exactAll ty d v)
    (hw : (JVal.arr w es).WF) (hf : (JVal.arr w es).Fits) :
    ∃ f0, ∀ f, f0 ≤ f → fromJson t Δ f (.ref i) (JVal.arr w es).text = .err .unknownMember ∧
      fromJsonZ t Δ f (.ref i) (JVal.arr w es).text = .err .unknownMember := by
  have hex' : (ex || t.exactAll) = true := by simpa using hex
  obtain ⟨f0, hf0⟩ := fromJson_unknownElem hck henv usable_nameOk rfl hi hex' (dok_of hw hf) hl hread
  obtain ⟨f1, hf1⟩ := fromJsonZ_unknownElem hck henv usable_nameOk rfl hi hex' (dok_of hw hf) hl hread
  exact ⟨max f0 f1, fun f hfu => ⟨hf0 f (by omega), hf1 f (by omega)⟩⟩

/-- **C78**, classes stored in arrays.  One with an exact mapping is not read from an array that has elements behind the
position of the last member. -/
theorem C78_extra_element_of_class_partial (t : TCfg) (hck : t.cfg.checked = true) (Δ : Env) (henv : EnvOk Δ) {i : Nat}
    {ms : List (Option Nat × Ty)} {ex : Bool} (hi : Δ i = .ord ms ex) (hex : ex = true ∨ t.exactAll = true) (w : Bytes)
    (es : JElems) (vs : List Val) (hl : ordEnd 0 ms < es.length)
    (hread : ReadsOrdered Δ (Usable t) t.exactAll false 0 ms es vs)
    (hw : (JVal.arr w es).WF) (hf : (JVal.arr w es).Fits) :
    ∃ f0, ∀ f, f0 ≤ f → fromJson t Δ f (.ref i) (JVal.arr w es).text = .err .unknownMember ∧
      fromJsonZ t Δ f (.ref i) (JVal.arr w es).text = .err .unknownMember := by
  have hex' : (ex || t.exactAll) = true := by simpa using hex
  obtain ⟨f0, hf0⟩ := fromJson_unknownOrd hck henv usable_nameOk rfl hi hex' (dok_of hw hf) hl hread
  obtain ⟨f1, hf1⟩ := fromJsonZ_unknownOrd hck henv usable_nameOk rfl hi hex' (dok_of hw hf) hl hread
  exact ⟨max f0 f1, fun f hfu => ⟨hf0 f (by omega), hf1 f (by omega)⟩⟩

/-- `struct L { optional<int> liquid; }` with an exact mapping. -/
def exExactL : Env := fun _ => .obj [⟨exLiquid, .opt (.int exI32 false)⟩] true

/-- C78 does not hold for names whose hash is that of a mapped name: `{"costarring":5}` is read as `L{5}`. -/
theorem C78_false_for_colliding_names :
    fromJson {} exExactL 9 (.ref 0) (JVal.obj [] (.cons [] exCostarring [] [] (.num [0x35]) [] .nil)).text
      = .ok (.cls [.some (.int 5)]) ∧
    fromJsonZ {} exExactL 9 (.ref 0) (JVal.obj [] (.cons [] exCostarring [] [] (.num [0x35]) [] .nil)).text
      = .ok (.cls [.some (.int 5)]) := by decide +kernel

/-- The class `S` with an exact mapping. -/
def exExact : Env := fun _ => .obj exMs true

theorem exExact_ok : EnvOk exExact := by
  refine .classes (fun i ms ex h => ?_) (fun i alts h => by cases h)
  cases h
  decide

/-- Non-vacuity: `{"x":7}`. -/
example : ∃ f0, ∀ f, f0 ≤ f → fromJson {} exExact f (.ref 0) (JVal.obj [] exX7).text = .err .unknownMember ∧
    fromJsonZ {} exExact f (.ref 0) (JVal.obj [] exX7).text = .err .unknownMember :=
  C78_unmapped_member_partial {} rfl exExact exExact_ok (ms := exMs) (ex := true) rfl (Or.inl rfl) [] _ exX7_usable (by decide)
    (fun m hm d h => absurd h (exX7_get m hm d)) [0x78] (by decide) (by decide) exX7_wf ⟨by decide, by decide⟩

/-- Non-vacuity: the member that is not mapped may be the last of several, `{"a":-12,"c":[{"a":0}], "x":7}`. -/
example : ∃ f0, ∀ f, f0 ≤ f → fromJson { exactAll := true } exEnv f (.ref 0) (JVal.obj [] exJm₂).text = .err .unknownMember ∧
    fromJsonZ { exactAll := true } exEnv f (.ref 0) (JVal.obj [] exJm₂).text = .err .unknownMember := by
  have h0 : Reads exEnv (Usable { exactAll := true }) true (.ref 0)
      (.obj [] (.cons [] [0x61] [] [] (.num [0x30]) [] .nil)) (.cls [.int 0, .none, .none]) := by
    refine .obj (ms := exMs) (ex := false) rfl ?_ (by decide) ?_ ?_
    · intro n hn
      simp only [JMems.names, JMems.toList, List.map_cons, List.map_nil, List.mem_singleton] at hn
      subst hn
      exact exUsable _ (by simp)
    · intro _ n hn
      simp only [JMems.names, JMems.toList, List.map_cons, List.map_nil, List.mem_singleton] at hn
      subst hn
      exact ⟨⟨[0x61], .int exI32 false⟩, by decide, rfl⟩
    · exact .found (d := .num [0x30]) rfl (.int (by decide) (by decide) exZero_numeral)
        (.absent rfl rfl (.absent rfl rfl .nil))
  refine C78_unmapped_member_partial { exactAll := true } rfl exEnv exEnv_ok (ms := exMs) (ex := false) rfl (Or.inr rfl) [] _ ?_
    (by decide) ?_ [0x78] (by decide) (by decide) ?_ ⟨by decide, by decide⟩
  · intro n hn
    simp only [JMems.names, exJm₂, JMems.toList, List.map_cons, List.map_nil, List.mem_cons, List.not_mem_nil, or_false] at hn
    rcases hn with rfl | rfl | rfl <;> exact exUsable _ (by simp)
  · intro m hm d hd
    simp only [exMs, List.mem_cons, List.not_mem_nil, or_false] at hm
    rcases hm with rfl | rfl | rfl
    · cases hd
      exact ⟨_, .int (by decide) (by decide) exNum_numeral⟩
    · cases hd
    · cases hd
      exact ⟨_, .some (by simp [exArr]) (.arr (by simp) (.cons h0 .nil))⟩
  · exact ⟨Or.inl ws_nil, ws_nil, name1_wf (by decide) (by decide) (by decide), ws_nil, ws_nil, exNum_wf, ws_nil,
      ws_sp, name1_wf (by decide) (by decide) (by decide), ws_nil, ws_nil, exArr_wf, ws_nil,
      ws_nil, name1_wf (by decide) (by decide) (by decide), ws_nil, ws_nil,
      num1_wf (by unfold IsDig; decide) (by decide), ws_nil, trivial⟩

/-- Class 0 is `tuple<int>`, class 1 a class stored in an array with one `int`; both exact or not. -/
def exTup1Env (ex : Bool) : Env
  | 0 => .tup [.int exI32 false] ex
  | _ => .ord [(none, .int exI32 false)] ex

theorem exTup1Env_ok (ex : Bool) : EnvOk (exTup1Env ex) := by
  refine .classes (fun i ms e h => ?_) (fun i alts h => ?_) <;> (match i, h with | 0, h => cases h | _ + 1, h => cases h)

/-- `[7,"b"]` -/
def exTup2 : JElems := .cons [] (.num [0x37]) [] (.cons [] (.str asc! "b") [] .nil)

theorem exTup2_wf : (JVal.arr [] exTup2).WF :=
  ⟨Or.inl ws_nil, ws_nil, num1_wf (by unfold IsDig; decide) (by decide), ws_nil, ws_nil,
    name1_wf (by decide) (by decide) (by decide), ws_nil, trivial⟩

/-- Non-vacuity: `[7,"b"]` is no exact `tuple<int>`. -/
example : ∃ f0, ∀ f, f0 ≤ f → fromJson {} (exTup1Env true) f (.ref 0) (JVal.arr [] exTup2).text = .err .unknownMember ∧
    fromJsonZ {} (exTup1Env true) f (.ref 0) (JVal.arr [] exTup2).text = .err .unknownMember :=
  C78_extra_element_of_tuple_partial {} rfl _ (exTup1Env_ok true) (ts := [.int exI32 false]) rfl (Or.inl rfl) [] _ (by decide)
    (fun p ty d h1 h2 => by
      match p with
      | 0 => cases h1; cases h2; exact ⟨_, .int (by decide) (by decide) num7_numeral⟩
      | p + 1 => simp at h1)
    exTup2_wf ⟨by decide, by decide⟩

/-- Non-vacuity: nor an exact class of one `int` stored in an array. -/
example : ∃ f0, ∀ f, f0 ≤ f → fromJson {} (exTup1Env true) f (.ref 1) (JVal.arr [] exTup2).text = .err .unknownMember ∧
    fromJsonZ {} (exTup1Env true) f (.ref 1) (JVal.arr [] exTup2).text = .err .unknownMember :=
  C78_extra_element_of_class_partial {} rfl _ (exTup1Env_ok true) rfl (Or.inl rfl) [] _ [.int 7] (by decide)
    (.read (Or.inl rfl) (.int (by decide) (by decide) num7_numeral) (.nil (by simp))) exTup2_wf ⟨by decide, by decide⟩

/-! ## C79 -/

theorem readsTuple_of {Δ : Env} {nm : List Bytes → Bytes → Prop} {ea : Bool} :
    ∀ (ts : List Ty) (es : JElems) (vs : List Val), vs.length = ts.length → ts.length ≤ es.toList.length →
      (∀ (p : Nat) (ty : Ty) (d : JVal) (v : Val), ts[p]? = some ty → es.toList[p]? = some d → vs[p]? = some v →
        Reads Δ nm ea ty d v) →
      (∀ w es', es.toList[ts.length]? ≠ some (.arr w es')) → ReadsTuple Δ nm ea false ts es vs
  | [], es, [], _, _, _, h => .nil (by simp) (by rintro pre w es' post tl rfl; exact h w es' rfl)
  | [], _, _ :: _, h, _, _, _ => by simp at h
  | _ :: _, .nil, _, _, h, _, _ => by simp [JElems.toList] at h
  | _ :: _, .cons .., [], h, _, _, _ => by simp at h
  | ty :: ts, .cons pre d post tl, v :: vs, h1, h2, h3, h4 =>
    .cons (h3 0 ty d v rfl rfl rfl) (readsTuple_of ts tl vs (by simpa using h1) (by simpa [JElems.toList] using h2)
      (fun p ty' d' v' a b c => h3 (p + 1) ty' d' v' (by simpa using a) (by simpa [JElems.toList] using b) (by simpa using c))
      (fun w es' h => h4 w es' (by simpa [JElems.toList] using h)))

/-- **C79, partial**, tuples.  A tuple without an exact mapping is read from the first elements of an array; the others are
ignored.  Missing: the first of the others may not be an array. -/
theorem C79_extra_elements_of_tuple_partial (t : TCfg) (hck : t.cfg.checked = true) (Δ : Env) (henv : EnvOk Δ) {i : Nat}
    {ts : List Ty} (hi : Δ i = .tup ts false) (hx : t.exactAll = false) (w : Bytes) (es : JElems) (vs : List Val)
    (hv : vs.length = ts.length) (hl : ts.length ≤ es.toList.length)
    (hread : ∀ (p : Nat) (ty : Ty) (d : JVal) (v : Val), ts[p]? = some ty → es.toList[p]? = some d → vs[p]? = some v →
      Reads Δ (Usable t) t.exactAll ty d v)
    (hna : ∀ w es', es.toList[ts.length]? ≠ some (.arr w es'))
    (hw : (JVal.arr w es).WF) (hf : (JVal.arr w es).Fits) :
    ∃ f0, ∀ f, f0 ≤ f → fromJson t Δ f (.ref i) (JVal.arr w es).text = .ok (.cls vs) ∧
      fromJsonZ t Δ f (.ref i) (JVal.arr w es).text = .ok (.cls vs) := by
  have hr : Reads Δ (Usable t) t.exactAll (.ref i) (.arr w es) (.cls vs) :=
    .tup hi (by
      have h := readsTuple_of ts es vs hv hl hread hna
      rw [Bool.false_or]
      rw [hx] at h ⊢
      exact h)
  obtain ⟨f0, hf0⟩ := C50_from_json_reads t hck Δ henv _ _ _ hr hw hf (endsWell_of rfl)
  obtain ⟨f1, hf1⟩ := C62_std_string_reads t hck Δ henv _ _ _ hr hw hf (fun _ => rfl)
  exact ⟨max f0 f1, fun f hfu => ⟨hf0 f (by omega), hf1 f (by omega)⟩⟩

/-- **C79**, classes stored in arrays: elements of any kind behind the last member are ignored, also when the class is part
of a document. -/
theorem C79_extra_elements_of_class (t : TCfg) (hck : t.cfg.checked = true) (Δ : Env) (henv : EnvOk Δ) {i : Nat}
    {ty : Ty} {ts : List Ty} (hi : Δ i = .ord ((ty :: ts).map fun ty => (none, ty)) false) (hx : t.exactAll = false)
    (w : Bytes) (es : JElems) (vs : List Val)
    (hv : vs.length = ts.length + 1) (hl : ts.length + 1 ≤ es.toList.length)
    (hread : ∀ (p : Nat) (ty' : Ty) (d : JVal) (v : Val), (ty :: ts)[p]? = some ty' → es.toList[p]? = some d →
      vs[p]? = some v → Reads Δ (Usable t) t.exactAll ty' d v)
    (hw : (JVal.arr w es).WF) (hf : (JVal.arr w es).Fits) :
    ∃ f0, ∀ f, f0 ≤ f → fromJson t Δ f (.ref i) (JVal.arr w es).text = .ok (.cls vs) ∧
      fromJsonZ t Δ f (.ref i) (JVal.arr w es).text = .ok (.cls vs) := by
  have key : ∀ (ts : List Ty) (es : JElems) (vs : List Val) (idx : Nat), vs.length = ts.length →
      ts.length ≤ es.toList.length →
      (∀ (p : Nat) (ty : Ty) (d : JVal) (v : Val), ts[p]? = some ty → es.toList[p]? = some d → vs[p]? = some v →
        Reads Δ (Usable t) t.exactAll ty d v) →
      ReadsOrdered Δ (Usable t) t.exactAll false idx (ts.map fun ty => (none, ty)) es vs := by
    intro ts
    induction ts with
    | nil =>
      intro es vs idx h1 _ _
      obtain rfl := List.length_eq_zero_iff.1 h1
      exact .nil (by simp)
    | cons ty ts ih =>
      intro es vs idx h1 h2 h3
      match es, vs with
      | .nil, _ => simp [JElems.toList] at h2
      | _, [] => simp at h1
      | .cons pre d post tl, v :: vs =>
        exact .read (Or.inl rfl) (h3 0 ty d v rfl rfl rfl) (ih tl vs _ (by simpa using h1) (by simpa [JElems.toList] using h2)
          fun p ty' d' v' a b c => h3 (p + 1) ty' d' v' (by simpa using a) (by simpa [JElems.toList] using b) (by simpa using c))
  have hr : Reads Δ (Usable t) t.exactAll (.ref i) (.arr w es) (.cls vs) := by
    refine .ord hi (by simp) (by simp [hx]) ?_
    have := key (ty :: ts) es vs 0 (by simpa using hv) (by simpa using hl) hread
    rw [Bool.false_or]
    rw [hx] at this ⊢
    exact this
  obtain ⟨f0, hf0⟩ := C50_from_json_reads t hck Δ henv _ _ _ hr hw hf (endsWell_of rfl)
  obtain ⟨f1, hf1⟩ := C62_std_string_reads t hck Δ henv _ _ _ hr hw hf (fun _ => rfl)
  exact ⟨max f0 f1, fun f hfu => ⟨hf0 f (by omega), hf1 f (by omega)⟩⟩

/-- C79 does not hold for tuples when the first element left over is an array: of `[[1,[2]],[3]]`, a `vector<tuple<int>>`,
the second tuple is lost, while with a number left over it is not. -/
theorem C79_false_for_arrays :
    fromJson {} (exTup1Env false) 9 (.arr (.ref 0)) asc! "[[1,[2]],[3]]" = .ok (.arr [.cls [.int 1]]) ∧
    fromJsonZ {} (exTup1Env false) 9 (.arr (.ref 0)) asc! "[[1,[2]],[3]]" = .ok (.arr [.cls [.int 1]]) ∧
    fromJson {} (exTup1Env false) 9 (.arr (.ref 0)) asc! "[[1,2],[3]]" = .ok (.arr [.cls [.int 1], .cls [.int 3]]) ∧
    fromJson {} (exTup1Env false) 9 (.arr (.ref 1)) asc! "[[1,[2]],[3]]" = .ok (.arr [.cls [.int 1], .cls [.int 3]]) := by
  decide +kernel

/-- Non-vacuity: `[7,"b"]` read as `tuple<int>`. -/
example : ∃ f0, ∀ f, f0 ≤ f → fromJson {} (exTup1Env false) f (.ref 0) (JVal.arr [] exTup2).text = .ok (.cls [.int 7]) ∧
    fromJsonZ {} (exTup1Env false) f (.ref 0) (JVal.arr [] exTup2).text = .ok (.cls [.int 7]) :=
  C79_extra_elements_of_tuple_partial {} rfl _ (exTup1Env_ok false) (ts := [.int exI32 false]) rfl rfl [] _ _ rfl (by decide)
    (fun p ty d v h1 h2 h3 => by
      match p with
      | 0 => cases h1; cases h2; cases h3; exact .int (by decide) (by decide) num7_numeral
      | p + 1 => simp at h1)
    (by intro w es' h; cases h) exTup2_wf ⟨by decide, by decide⟩

/-- Non-vacuity: `[7,"b"]` read as a class of one `int` stored in an array. -/
example : ∃ f0, ∀ f, f0 ≤ f → fromJson {} (exTup1Env false) f (.ref 1) (JVal.arr [] exTup2).text = .ok (.cls [.int 7]) ∧
    fromJsonZ {} (exTup1Env false) f (.ref 1) (JVal.arr [] exTup2).text = .ok (.cls [.int 7]) :=
  C79_extra_elements_of_class {} rfl _ (exTup1Env_ok false) (ty := .int exI32 false) (ts := []) rfl rfl [] _ _ rfl (by decide)
    (fun p ty d v h1 h2 h3 => by
      match p with
      | 0 => cases h1; cases h2; cases h3; exact .int (by decide) (by decide) num7_numeral
      | p + 1 => simp at h1)
    exTup2_wf ⟨by decide, by decide⟩

end Verif
