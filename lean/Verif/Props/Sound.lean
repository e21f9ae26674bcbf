import Verif.Proof.Sound
import Verif.Props.Variant
import Verif.Spec.Ascii
import Verif.Proof.RefParse

/-!
# Property C86: `from_json` accepts only documents that fit the type

C50 says that documents that can be read as the type are accepted; here the other direction.  With it C23 and C78 hold whatever
the other members look like.
-/

namespace Verif

open Spec

/-- **C86, partial.**  If checked `from_json` gives a value for a JSON document, with whitespace or a NUL behind it if one likes,
then the document fits the type: literals for booleans, integers without fraction or exponent, strings where text is asked for,
arrays and objects whose elements fit, at every depth.  In classes members that are missing are nullable and, if all members must be
mapped, they are.  Members out of order need not fit (`Loose`), see the theorems below.  Missing: classes stored in arrays, and
tuples with elements that are not mapped, see `C86_false_for_tuples`; objects in which a mapped name occurs twice; booleans and integers that
may or may not be strings (`Ty.strict`), see `C92_false_for_quotes`. -/
theorem C86_accepted_fits_partial (t : TCfg) (hck : t.cfg.checked = true) (Δ : Env)
    (hnod : ∀ i ms ex, Δ i = .obj ms ex → (ms.map Member.name).Nodup) (hpl : PlainShapes Δ t.exactAll) (f : Nat) (ty : Ty) (hs : ty.strict = true)
    (d : JVal) (hw : d.WF) (hf : d.Fits) (k : Bytes) (hk : AfterValue (dropNul k)) (v : Val) (h : fromJson t Δ f ty (d.text ++ k) = .ok v) :
    Shaped Δ (Usable t) t.exactAll ty d := by
  unfold fromJson at h
  simp only [Res.bind_eq_ok] at h
  obtain ⟨_, -, ⟨x, r⟩, hx, -⟩ := h
  have he : (if (d.text ++ k).getLast? = some 0 then (d.text ++ k).dropLast else d.text ++ k) = d.text ++ dropNul k :=
    dropNul_append (tc := false) hw k
  rw [he] at hx
  exact ((parse_sound hck hnod hpl usable_nameOk rfl f ty d hs (dok_of hw hf)).1 _ x r hk hx).2

/-- Non-vacuity: the document of C50, whose members are out of order, fits its type … -/
example : Shaped exEnv (Usable {}) false (.ref 0) exDoc :=
  C86_accepted_fits_partial {} rfl exEnv exEnv_ok.nodup ⟨nofun, nofun, fun _ => rfl⟩ 10 (.ref 0) rfl exDoc
    exDoc_wf exDoc_fits [0x20, 0] ⟨[0x20], [], ws_sp, rfl, Or.inl rfl⟩ exVal (by decide +kernel)

/-- … and a document that does not fit is never accepted: `[7]` is not an integer. -/
example (f : Nat) (v : Val) : fromJson {} exEnv f (.int exI32 false) exSeven.text ≠ .ok v := by
  intro h
  have := C86_accepted_fits_partial {} rfl exEnv exEnv_ok.nodup ⟨nofun, nofun, fun _ => rfl⟩ f (.int exI32 false) rfl
    exSeven exSeven_wf ⟨by decide, by decide⟩ [] ⟨[], [], ws_nil, rfl, Or.inl rfl⟩ v (by simpa using h)
  cases this

/-! ## Classes -/

section
variable (t : TCfg) (hck : t.cfg.checked = true) (Δ : Env)
  (hnod : ∀ i ms ex, Δ i = .obj ms ex → (ms.map Member.name).Nodup) (hpl : PlainShapes Δ t.exactAll) (f : Nat)
  {i : Nat} {ms : List Member} {ex : Bool} (hi : Δ i = .obj ms ex) (w : Bytes) (jm : JMems)
  (hn : ∀ n ∈ jm.names, Usable t (ms.map Member.name) n) (honce : ∀ m ∈ ms, jm.names.count m.name ≤ 1)
  (hw : (JVal.obj w jm).WF) (hf : (JVal.obj w jm).Fits)
include hck hnod hpl hi hn honce hw hf

/-- **C23**, second half, for any object: without a member that is not nullable it is never accepted, whatever its other members
are. -/
theorem C23_absent_required_rejected (m : Member) (hm : m ∈ ms) (ho : m.ty.isOpt = false) (hg : m.name ∉ jm.names) (v : Val) :
    fromJson t Δ f (.ref i) (JVal.obj w jm).text ≠ .ok v := by
  intro h
  have := C86_accepted_fits_partial t hck Δ hnod hpl f (.ref i) rfl _ hw hf [] ⟨[], [], ws_nil, rfl, Or.inl rfl⟩ v (by simpa using h)
  cases this with
  | obj hi' hs =>
    rw [hi] at hi'
    cases hi'
    obtain ⟨h1, -⟩ := hs
    have := h1 ⟨hn, honce⟩ m hm (JMems_get?_none.2 hg)
    rw [ho] at this
    cases this
  | var hi' _ _ _ => rw [hi] at hi'; cases hi'
  | ivar hi' _ _ _ => rw [hi] at hi'; cases hi'

/-- **C78** for any object: with a member that is not mapped it is never accepted as a class with an exact mapping, whatever its other
members are. -/
theorem C78_unmapped_member_rejected (hex : ex = true ∨ t.exactAll = true) (n : Bytes) (hnj : n ∈ jm.names) (hnm : ∀ m ∈ ms, m.name ≠ n)
    (v : Val) : fromJson t Δ f (.ref i) (JVal.obj w jm).text ≠ .ok v := by
  intro h
  have := C86_accepted_fits_partial t hck Δ hnod hpl f (.ref i) rfl _ hw hf [] ⟨[], [], ws_nil, rfl, Or.inl rfl⟩ v (by simpa using h)
  cases this with
  | obj hi' hs =>
    rw [hi] at hi'
    cases hi'
    obtain ⟨-, h2, -⟩ := hs
    obtain ⟨m, hm, he⟩ := h2 ⟨hn, honce⟩ (by simpa using hex) n hnj
    exact hnm m hm he
  | var hi' _ _ _ => rw [hi] at hi'; cases hi'
  | ivar hi' _ _ _ => rw [hi] at hi'; cases hi'

/-- **C86**, members in order: every member that is there fits its type strictly. -/
theorem C86_members_in_order (hord : InOrder ms jm) (v : Val) (h : fromJson t Δ f (.ref i) (JVal.obj w jm).text = .ok v)
    (m : Member) (hm : m ∈ ms) (d : JVal) (hd : jm.get? m.name = some d) : Shaped Δ (Usable t) t.exactAll m.ty d := by
  have := C86_accepted_fits_partial t hck Δ hnod hpl f (.ref i) rfl _ hw hf [] ⟨[], [], ws_nil, rfl, Or.inl rfl⟩ v (by simpa using h)
  cases this with
  | obj hi' hs =>
    rw [hi] at hi'
    cases hi'
    obtain ⟨-, -, -, h4⟩ := hs
    exact h4 ⟨hn, honce⟩ hord m hm d hd
  | var hi' _ _ _ => rw [hi] at hi'; cases hi'
  | ivar hi' _ _ _ => rw [hi] at hi'; cases hi'

end

/-! ### Non-vacuity

`struct S { int a; int b; }` -/

/-- The mappings of the examples: a class with the members `a` and `b` of the given types. -/
def exAB (ta tb : Ty) (ex : Bool) : Env := fun _ => .obj [⟨[0x61], ta⟩, ⟨[0x62], tb⟩] ex

theorem exAB_nodup (ta tb : Ty) (ex : Bool) : ∀ i ms e, exAB ta tb ex i = .obj ms e → (ms.map Member.name).Nodup := by
  intro i ms e h; cases h; simp

theorem exAB_plain (ta tb : Ty) (ex ea : Bool) (ha : ta.strict = true) (hb : tb.strict = true) : PlainShapes (exAB ta tb ex) ea :=
  ⟨nofun, nofun, fun _ => by simp [exAB, Shape.strict, ha, hb]⟩

/-- An object with the members `a` and `b`. -/
def exJab (a b : JVal) : JMems := .cons [] [0x61] [] [] a [] (.cons [] [0x62] [] [] b [] .nil)
/-- An object with the members `b` and `a`. -/
def exJba (b a : JVal) : JMems := .cons [] [0x62] [] [] b [] (.cons [] [0x61] [] [] a [] .nil)

theorem exJab_wf {a b : JVal} (ha : a.WF) (hb : b.WF) : (JVal.obj [] (exJab a b)).WF :=
  ⟨Or.inl ws_nil, ws_nil, name1_wf (by decide) (by decide) (by decide), ws_nil, ws_nil, ha, ws_nil,
    ws_nil, name1_wf (by decide) (by decide) (by decide), ws_nil, ws_nil, hb, ws_nil, trivial⟩

theorem exJba_wf {b a : JVal} (hb : b.WF) (ha : a.WF) : (JVal.obj [] (exJba b a)).WF :=
  ⟨Or.inl ws_nil, ws_nil, name1_wf (by decide) (by decide) (by decide), ws_nil, ws_nil, hb, ws_nil,
    ws_nil, name1_wf (by decide) (by decide) (by decide), ws_nil, ws_nil, ha, ws_nil, trivial⟩

theorem exAB_usable (n : Bytes) (h : n = [0x61] ∨ n = [0x62] ∨ n = [0x78]) : Usable {} [[0x61], [0x62]] n := by
  refine ⟨Or.inl ?_, Or.inr (Or.inr ?_)⟩
  · rcases h with rfl | rfl | rfl <;> (unfold PlainName; decide)
  · rcases h with rfl | rfl | rfl <;> decide +kernel

/-- `{"a":1}` is not accepted, and neither is `{"x":7}` if `S` has an exact mapping. -/
example (f : Nat) (v : Val) :
    fromJson {} (exAB (.int exI32 false) (.int exI32 false) false) f (.ref 0) (JVal.obj [] (.cons [] [0x61] [] [] .tru [] .nil)).text ≠ .ok v ∧
    fromJson {} (exAB (.int exI32 false) (.int exI32 false) true) f (.ref 0) (JVal.obj [] (.cons [] [0x78] [] [] .tru [] .nil)).text ≠ .ok v := by
  have hu : ∀ c : UInt8, (c = 0x61 ∨ c = 0x78) → ∀ n ∈ (JMems.cons [] [c] [] [] .tru [] .nil).names, Usable {} [[0x61], [0x62]] n := by
    intro c hc n hn
    simp only [JMems.names, JMems.toList, List.map_cons, List.map_nil, List.mem_singleton] at hn
    subst hn
    rcases hc with rfl | rfl <;> exact exAB_usable _ (by simp)
  have hwf : ∀ c : UInt8, (c = 0x61 ∨ c = 0x78) → (JVal.obj [] (JMems.cons [] [c] [] [] .tru [] .nil)).WF := by
    intro c hc
    refine ⟨Or.inl ws_nil, ws_nil, ?_, ws_nil, ws_nil, trivial, ws_nil, trivial⟩
    rcases hc with rfl | rfl <;> exact name1_wf (by decide) (by decide) (by decide)
  exact ⟨C23_absent_required_rejected {} rfl _ (exAB_nodup _ _ _) (exAB_plain _ _ _ _ rfl rfl) f rfl [] _ (hu _ (Or.inl rfl)) (by decide)
      (hwf _ (Or.inl rfl)) ⟨by decide, by decide⟩ ⟨[0x62], .int exI32 false⟩ (by simp) rfl (by decide) v,
    C78_unmapped_member_rejected {} rfl _ (exAB_nodup _ _ _) (exAB_plain _ _ _ _ rfl rfl) f rfl [] _ (hu _ (Or.inr rfl)) (by decide)
      (hwf _ (Or.inr rfl)) ⟨by decide, by decide⟩ (Or.inl rfl) [0x78] (by decide) (by decide) v⟩

theorem exJab_usable (a b : JVal) : ∀ n ∈ (exJab a b).names, Usable {} [[0x61], [0x62]] n := by
  intro n hn
  simp only [exJab, JMems.names, JMems.toList, List.map_cons, List.map_nil, List.mem_cons, List.not_mem_nil, or_false] at hn
  exact exAB_usable n (by rcases hn with h | h <;> simp [h])

theorem exJba_usable (b a : JVal) : ∀ n ∈ (exJba b a).names, Usable {} [[0x61], [0x62]] n := by
  intro n hn
  simp only [exJba, JMems.names, JMems.toList, List.map_cons, List.map_nil, List.mem_cons, List.not_mem_nil, or_false] at hn
  exact exAB_usable n (by rcases hn with h | h <;> simp [h])

/-- `7` -/
def exN7 : JVal := .num [0x37]
theorem exN7_wf : exN7.WF := num1_wf (by unfold IsDig; decide) (by decide)

/-- `{"a":7,"b":[7]}` is in order. -/
example : Shaped (exAB (.int exI32 false) (.arr (.int exI32 false)) false) (Usable {}) false (.arr (.int exI32 false)) exSeven :=
  C86_members_in_order {} rfl _ (exAB_nodup _ _ _) (exAB_plain _ _ _ _ rfl rfl) 10 (i := 0) rfl [] (exJab exN7 exSeven) (exJab_usable _ _) (by decide)
    (exJab_wf exN7_wf exSeven_wf) ⟨by decide, by decide⟩ ⟨[], rfl⟩ (.cls [.int 7, .arr [.int 7]]) (by decide +kernel) ⟨[0x62], .arr (.int exI32 false)⟩ (by simp)
    exSeven rfl

/-! ## Members out of order

A member that is skipped on the way to another one is read from its range: strings lose their quotes and are parsed as the type of
the member; any value is taken for a string; a fraction is not looked at. -/

/-- What C86 says about classes without the condition on the order. -/
def StrictMembers : Prop :=
  ∀ (Δ : Env) (ms : List Member) (jm : JMems) (v : Val), Δ 0 = .obj ms false → (ms.map Member.name).Nodup → NamesClear (Usable {}) ms jm →
    (JVal.obj [] jm).WF → (JVal.obj [] jm).Fits → fromJson {} Δ 10 (.ref 0) (JVal.obj [] jm).text = .ok v →
    ∀ m ∈ ms, ∀ d, jm.get? m.name = some d → Shaped Δ (Usable {}) false m.ty d

/-- A string is taken for a boolean: `{"b":"t","a":7}`. -/
theorem C86_false_for_booleans :
    (JVal.obj [] (exJba (.str [0x74]) exN7)).WF ∧ NamesClear (Usable {}) [⟨[0x61], .int exI32 false⟩, ⟨[0x62], .bool⟩] (exJba (.str [0x74]) exN7) ∧
    fromJson {} (exAB (.int exI32 false) .bool false) 10 (.ref 0) (JVal.obj [] (exJba (.str [0x74]) exN7)).text = .ok (.cls [.int 7, .bool true]) ∧
    ¬ Shaped (exAB (.int exI32 false) .bool false) (Usable {}) false .bool (.str [0x74]) :=
  ⟨exJba_wf (name1_wf (c := 0x74) (by decide) (by decide) (by decide)) exN7_wf, ⟨exJba_usable _ _, by decide⟩, by decide +kernel, nofun⟩

/-- An array is taken for a string: `{"b":[7],"a":7}` gives `b` the text `[7],`. -/
theorem C86_false_for_strings :
    (JVal.obj [] (exJba exSeven exN7)).WF ∧ NamesClear (Usable {}) [⟨[0x61], .int exI32 false⟩, ⟨[0x62], .str true⟩] (exJba exSeven exN7) ∧
    fromJson {} (exAB (.int exI32 false) (.str true) false) 10 (.ref 0) (JVal.obj [] (exJba exSeven exN7)).text
      = .ok (.cls [.int 7, .str (asc! "[7],")]) ∧
    ¬ Shaped (exAB (.int exI32 false) (.str true) false) (Usable {}) false (.str true) exSeven :=
  ⟨exJba_wf exSeven_wf exN7_wf, ⟨exJba_usable _ _, by decide⟩, by decide +kernel, nofun⟩

/-- A string is taken for an array: `{"b":"[7]","a":7}`. -/
theorem C86_false_for_arrays :
    (JVal.obj [] (exJba (.str (asc! "[7]")) exN7)).WF ∧
    NamesClear (Usable {}) [⟨[0x61], .int exI32 false⟩, ⟨[0x62], .arr (.int exI32 false)⟩] (exJba (.str (asc! "[7]")) exN7) ∧
    fromJson {} (exAB (.int exI32 false) (.arr (.int exI32 false)) false) 10 (.ref 0) (JVal.obj [] (exJba (.str (asc! "[7]")) exN7)).text
      = .ok (.cls [.int 7, .arr [.int 7]]) ∧
    ¬ Shaped (exAB (.int exI32 false) (.arr (.int exI32 false)) false) (Usable {}) false (.arr (.int exI32 false)) (.str (asc! "[7]")) :=
  ⟨exJba_wf (.plain (by decide) (by decide) (by decide) (.plain (by decide) (by decide) (by decide) (.plain (by decide) (by decide) (by decide) .nil)))
    exN7_wf, ⟨exJba_usable _ _, by decide⟩, by decide +kernel, nofun⟩

/-- `7.5` -/
def exN75 : JVal := .num [0x37, 0x2E, 0x35]
theorem exN75_wf : exN75.WF :=
  ⟨[], [0x37], [0x2E, 0x35], [], Or.inl rfl, Or.inr ⟨⟨by simp, by unfold IsDig; decide⟩, by simp⟩,
    Or.inr ⟨[0x35], ⟨by simp, by unfold IsDig; decide⟩, rfl⟩, Or.inl rfl, rfl⟩

/-- A number with a fraction is taken for an integer, and a different one: `{"b":7.5,"a":7}` gives `b` the value 3245. -/
theorem C86_false_for_integers :
    (JVal.obj [] (exJba exN75 exN7)).WF ∧
    NamesClear (Usable {}) [⟨[0x61], .int exI32 false⟩, ⟨[0x62], .int exI32 false⟩] (exJba exN75 exN7) ∧
    fromJson {} (exAB (.int exI32 false) (.int exI32 false) false) 10 (.ref 0) (JVal.obj [] (exJba exN75 exN7)).text
      = .ok (.cls [.int 7, .int 3245]) ∧
    ¬ Shaped (exAB (.int exI32 false) (.int exI32 false) false) (Usable {}) false (.int exI32 false) exN75 := by
  refine ⟨exJba_wf exN75_wf exN7_wf, ⟨exJba_usable _ _, by decide⟩, by decide +kernel, ?_⟩
  intro h
  generalize he : exN75 = d at h
  cases h with
  | int hm hi =>
    have hp : ∀ x ∈ [0x37, 0x2E, (0x35 : UInt8)], x = 0x2D ∨ IsDig x := by
      simp only [exN75, JVal.num.injEq] at he
      rw [he]
      intro x hx
      rcases List.mem_append.1 hx with hx | hx
      · rcases hm with rfl | ⟨rfl, -⟩
        · cases hx
        · exact Or.inl (List.mem_singleton.1 hx)
      · right
        rcases hi with rfl | ⟨⟨-, h2⟩, -⟩
        · rw [List.mem_singleton.1 hx]; unfold IsDig; decide
        · exact h2 x hx
    have := hp 0x2E (by simp)
    unfold IsDig at this
    revert this
    decide

/-- So the order is needed. -/
theorem C86_order_needed : ¬ StrictMembers := by
  intro h
  obtain ⟨h1, h2, h3, h4⟩ := C86_false_for_booleans
  exact h4 (h (exAB (.int exI32 false) .bool false) _ _ _ rfl (by simp) h2 h1 ⟨by decide, by decide⟩ h3 ⟨[0x62], .bool⟩ (by simp) _ rfl)

/-! ## Tuples -/

/-- `std::vector<std::tuple<int>>` -/
def exTup1 : Env := fun _ => .tup [.int exI32 false] false

/-- `[[7,[7]],true]` -/
def exTupDoc : JVal := .arr [] (.cons [] (.arr [] (.cons [] exN7 [] (.cons [] exSeven [] .nil))) [] (.cons [] .tru [] .nil))

theorem exTupDoc_wf : exTupDoc.WF :=
  ⟨Or.inl ws_nil, ws_nil, ⟨Or.inl ws_nil, ws_nil, exN7_wf, ws_nil, ws_nil, exSeven_wf, ws_nil, trivial⟩, ws_nil, ws_nil, trivial, ws_nil, trivial⟩

/-- Elements of a tuple that are not mapped are skipped up to the first `]`: `[[7,[7]],true]` is taken for a vector of
`std::tuple<int>`, with one element. -/
theorem C86_false_for_tuples :
    exTupDoc.WF ∧ exTupDoc.Fits ∧ fromJson {} exTup1 10 (.arr (.ref 0)) exTupDoc.text = .ok (.arr [.cls [.int 7]]) ∧
    ¬ Shaped exTup1 (Usable {}) false (.arr (.ref 0)) exTupDoc := by
  refine ⟨exTupDoc_wf, ⟨by decide, by decide⟩, by decide +kernel, ?_⟩
  intro h
  cases h with
  | arr hall =>
    have := hall .tru (by simp [JElems.toList])
    cases this with
    | var hi _ _ _ => cases hi

/-! ## Texts that are not JSON -/
/-- Text that is not JSON is accepted: with a comma behind the last element or member, and with anything in brackets that balance as the
value of a member that is not mapped. -/
theorem C86_not_json_accepted :
    (¬ IsJson (asc! "[7,]") ∧ fromJson {} exTup1 10 (.arr (.int exI32 false)) (asc! "[7,]") = .ok (.arr [.int 7])) ∧
    (¬ IsJson (asc! "{\"a\":7,\"b\":7,}") ∧
      fromJson {} (exAB (.int exI32 false) (.int exI32 false) false) 10 (.ref 0) (asc! "{\"a\":7,\"b\":7,}") = .ok (.cls [.int 7, .int 7])) ∧
    (¬ IsJson (asc! "{\"x\":{,:,},\"a\":7,\"b\":7}") ∧
      fromJson {} (exAB (.int exI32 false) (.int exI32 false) false) 10 (.ref 0) (asc! "{\"x\":{,:,},\"a\":7,\"b\":7}")
        = .ok (.cls [.int 7, .int 7])) :=
  ⟨⟨not_json (by decide +kernel), by decide +kernel⟩, ⟨not_json (by decide +kernel), by decide +kernel⟩,
    not_json (by decide +kernel), by decide +kernel⟩

end Verif
