import Verif.Proof.SchemaWrite
import Verif.Proof.SchemaStrip
import Verif.Props.Write

/-!
# Properties C65–C69: JSON Schemas
-/

namespace Verif

open Spec

/-! ## C65 -/

/-- **C65, partial.**  What `to_json_schema` writes is well-formed JSON, for every type, format, id and title.  Missing: `id`,
`title` and names of members that cannot stand between quotes as they are, see `C65_false_for_quotes`; classes without members
(as the type itself), see `C65_false_for_empty_classes`. -/
theorem C65_schema_is_json_partial (w : WCfg) (t : STy) (id title : Bytes) (hn : t.NamesOk IsStrBody) (hi : IsStrBody id)
    (ht : IsStrBody title) (he : t.isEmptyClass = false) : IsJson (toJsonSchema w t id title) :=
  ⟨sRoot w t id title, [], [], sRoot_wf w t hn hi ht, ws_empty, ws_empty, by
    rw [toJsonSchema_text w t id title he, List.append_nil, List.nil_append]⟩

/-- `struct P { unsigned x; optional<string> s; vector<bool> f; }` and `struct Q { P p; map<string, int> m; }`. -/
def exSEnv : Env
  | 0 => .obj [⟨asc! "x", .int ⟨32, false⟩ false⟩, ⟨asc! "s", .opt (.str false)⟩, ⟨asc! "f", .arr .bool⟩] false
  | _ => .obj [⟨asc! "p", .ref 0⟩, ⟨asc! "m", .map (.int exI32 false)⟩] false

/-- `Q` written out. -/
def exSTy : STy :=
  .obj (.cons asc! "p" none (.obj (.cons asc! "x" none .unsigned (.cons asc! "s" none (.null .string)
    (.cons asc! "f" none (.arr .bool) .nil)))) (.cons asc! "m" none (.kv .signed) .nil))

theorem exSTy_eq : schemaTy exSEnv 2 (.ref 1) = some exSTy := rfl

theorem exSTy_names : exSTy.NamesOk IsStrBody := by
  simp only [exSTy, STy.NamesOk, SMems.NamesOk]
  refine ⟨plainBody (by decide), by simp, ⟨plainBody (by decide), by simp, trivial, plainBody (by decide), by simp, trivial,
    plainBody (by decide), by simp, trivial, trivial⟩, plainBody (by decide), by simp, trivial, trivial⟩

/-- Non-vacuity: the schema of `Q`, pretty printed. -/
example : IsJson (toJsonSchema { pretty := true } exSTy asc! "https://example.com/q" asc! "Q") :=
  C65_schema_is_json_partial _ _ _ _ exSTy_names (plainBody (by decide)) (plainBody (by decide)) rfl

/-- The schema of `Q`, minified. -/
example : toJsonSchema {} exSTy asc! "q" asc! "Q" = asc! "{\"$schema\":\"https://json-schema.org/draft/2020-12/schema\",\"$id\":\"q\",\"title\":\"Q\",\"type\":\"object\",\"properties\":{\"p\":{\"type\":\"object\",\"properties\":{\"x\":{\"type\":\"integer\",\"minimum\":0},\"s\":{\"type\":\"string\"},\"f\":{\"type\":\"array\",\"items\":{\"type\":\"boolean\"}}},\"required\":[\"x\",\"f\"]},\"m\":{\"type\":\"object\",\"additionalProperties\":{\"type\":\"integer\"}}},\"required\":[\"p\",\"m\"]}" := by
  decide +kernel

/-- `id`, `title` and names are copied as they are: a title that is a quote gives `"title":""","type"...`, not JSON. -/
theorem C65_false_for_quotes : ¬ IsJson (toJsonSchema {} .bool asc! "i" asc! "\"") := not_json (by decide +kernel)

/-- For a class without members nothing is written after the title, but the comma before it is: `"title":"t",}`, not JSON. -/
theorem C65_false_for_empty_classes : ¬ IsJson (toJsonSchema {} (.obj .nil) asc! "i" asc! "t") := not_json (by decide +kernel)

/-! ## C66 -/

/-- **C66, partial.**  What `to_json_schema` writes is a JSON Schema: each keyword has a value of the kind the meta-schema asks
for.  For draft 2020-12, which the text declares, tuples and classes stored in arrays are missing, see
`C66_false_for_tuples`; for drafts up to 2019-09 only empty tuples are. -/
theorem C66_schema_is_schema_partial (D : Draft) (w : WCfg) (t : STy) (id title : Bytes) (hn : t.NamesOk IsStrBody)
    (hi : IsStrBody id) (ht : IsStrBody title) (he : t.isEmptyClass = false) (hs : t.Sound D) :
    ∃ e : JVal, e.WF ∧ toJsonSchema w t id title = e.text ∧ IsSchema D e :=
  ⟨sRoot w t id title, sRoot_wf w t hn hi ht, toJsonSchema_text w t id title he, sRoot_ok D w t id title hs⟩

theorem exSTy_sound : exSTy.Sound .d2020 := by
  simp only [exSTy, STy.Sound, SMems.Sound, SMems.names]
  decide

/-- Non-vacuity: the schema of `Q` in the draft it declares. -/
example : ∃ e : JVal, e.WF ∧ toJsonSchema {} exSTy asc! "q" asc! "Q" = e.text ∧ IsSchema .d2020 e :=
  C66_schema_is_schema_partial _ _ _ _ _ exSTy_names (plainBody (by decide)) (plainBody (by decide)) rfl exSTy_sound

/-- For every tuple the text is not a schema in draft 2020-12: the value of `items` is an array. -/
theorem C66_false_for_tuples (w : WCfg) (ts : STys) (id title : Bytes) (hn : ts.NamesOk IsStrBody)
    (hi : IsStrBody id) (ht : IsStrBody title) :
    ¬ ∃ e : JVal, e.WF ∧ toJsonSchema w (.tup ts) id title = e.text ∧ IsSchema .d2020 e := by
  rintro ⟨e, hw, he, h⟩
  rw [toJsonSchema_text w _ id title rfl] at he
  rw [← isSchema_text (sRoot_wf w (.tup ts) hn hi ht) hw he] at h
  simp [sRoot, IsSchema, mem, KeywordsOk, sMems] at h

/-! ## C67 -/

/-- The document is valid against what `to_json_schema` writes for the type. -/
def SchemaAccepts (D : Draft) (w : WCfg) (t : STy) (id title : Bytes) (d : JVal) : Prop :=
  ∃ e : JVal, e.WF ∧ toJsonSchema w t id title = e.text ∧ Valid D e d

theorem schemaAccepts_iff {D : Draft} {w : WCfg} {t : STy} {id title : Bytes} {d : JVal} (hn : t.NamesOk IsStrBody)
    (hi : IsStrBody id) (ht : IsStrBody title) (he : t.isEmptyClass = false) :
    SchemaAccepts D w t id title d ↔ SVal D t d := by
  rw [← sRoot_valid D w t id title d, SchemaAccepts, toJsonSchema_text w t id title he]
  exact ⟨fun ⟨e, h1, h2, h3⟩ => (valid_text (sRoot_wf w t hn hi ht) h1 h2 d).2 h3,
    fun h => ⟨_, sRoot_wf w t hn hi ht, rfl, h⟩⟩

/-- **C67, partial.**  What `to_json` writes for a value is valid against what `to_json_schema` writes for its type.  Missing:
nullable types other than those of members of classes, see `C67_false_for_null_elements`; what is missing in C65 and C66. -/
theorem C67_written_is_valid_partial (D : Draft) (w w' : WCfg) (htc : w.tc = false) (Δ : Env) (hΔ : Writable Δ)
    (hp : PlainMapped Δ) (ty : Ty) (v : Val) (hv : HasTy Δ ValidUtf8 (Seven w.only7bit) ty v) (f : Nat) (s : STy) (hs : schemaTy Δ f ty = some s)
    (hD : s.Sound D) (ho : s.NullsOmitted) (he : s.isEmptyClass = false) (id title : Bytes) (hi : IsStrBody id)
    (ht : IsStrBody title) :
    ∃ d : JVal, d.WF ∧ toJson w Δ ty v = .ok d.text ∧ SchemaAccepts D w' s id title d := by
  obtain ⟨d, hd⟩ := layVal_ok (w := w) 0 ty v hv
  have hwf := layVal_wf hΔ 0 ty v hv hd
  rw [htc] at hwf
  refine ⟨d, hwf, ?_, ?_⟩
  · rw [toJson, writeVal_text hΔ 0 ty v hv, hd]
    rfl
  · have hr : Reads Δ (fun _ n => PlainName n) false ty d v :=
      layVal_reads hΔ ⟨fun i ms ex h m hm => hp i ms ex h m hm, fun h => (by rw [htc] at h; cases h),
        fun _ _ _ _ _ => ⟨rfl, fun j ms ex _ h m hm => hp j ms ex h m hm⟩⟩ 0 ty v hv hd
    have hsat := sat_with (sat_ref (nm := fun _ n => PlainName n) (ea := false) (D := D) (fun _ _ h => h)
      (fun i ms ex h m hm => ⟨hp i ms ex h m hm, hΔ.names i ms ex h m hm⟩) f) ty s hs
    exact (schemaAccepts_iff (schemaTyWith_names (schemaRef_names hΔ.names f) ty s hs) hi ht he).2
      (hsat.1 hD d v (layVal_noNull f 0 ty v hv hd hs ho) hr)

theorem exSEnv_writable : Writable exSEnv where
  nodup := by
    refine .classes (fun i ms ex h => ?_) (fun i alts h => by match i with | 0 => cases h | _ + 1 => cases h)
    match i with
    | 0 => cases h; decide
    | _ + 1 => cases h; decide
  names := by
    intro i ms ex h m hm
    match i with
    | 0 =>
      cases h
      simp only [List.mem_cons, List.not_mem_nil, or_false] at hm
      rcases hm with rfl | rfl | rfl <;> exact plainBody (by decide)
    | _ + 1 =>
      cases h
      simp only [List.mem_cons, List.not_mem_nil, or_false] at hm
      rcases hm with rfl | rfl <;> exact plainBody (by decide)
  compact := by
    intro i ms ex h
    match i with
    | 0 => cases h
    | _ + 1 => cases h

theorem exSEnv_plain : PlainMapped exSEnv := by
  intro i ms ex h m hm
  match i with
  | 0 =>
    cases h
    simp only [List.mem_cons, List.not_mem_nil, or_false] at hm
    rcases hm with rfl | rfl | rfl <;> (unfold PlainName; decide)
  | _ + 1 =>
    cases h
    simp only [List.mem_cons, List.not_mem_nil, or_false] at hm
    rcases hm with rfl | rfl <;> (unfold PlainName; decide)

/-- `Q{ P{ 7, {}, { true } }, { { "k", -1 } } }`. -/
def exSVal : Val := .cls [.cls [.int 7, .none, .arr [.bool true]], .map [(asc! "k", .int (-1))]]

theorem exSVal_hasTy {T : Bytes → Prop} : HasTy exSEnv ValidUtf8 T (.ref 1) exSVal := by
  simp [exSVal, HasTy, HasList, HasElems, HasPairs, exSEnv]
  refine ⟨by decide, ?_, by decide⟩
  exact ⟨[0x6B], by simp [IsScalar], by decide⟩

/-- Non-vacuity: a value of `Q`, written as `{"p":{"x":7,"f":[true]},"m":{"k":-1}}`. -/
example : ∃ d : JVal, d.WF ∧ toJson {} exSEnv (.ref 1) exSVal = .ok d.text ∧
    SchemaAccepts .d2020 {} exSTy asc! "q" asc! "Q" d :=
  C67_written_is_valid_partial _ _ _ rfl exSEnv exSEnv_writable exSEnv_plain _ _ exSVal_hasTy 2 exSTy exSTy_eq exSTy_sound
    (by simp [exSTy, STy.NullsOmitted, SMems.NullsOmitted]) rfl _ _ (plainBody (by decide)) (plainBody (by decide))

/-- A `vector<optional<bool>>` with an empty element is written as `[null]`, which is not valid against its schema, in any
draft: the element has to be a boolean. -/
theorem C67_false_for_null_elements (D : Draft) :
    schemaTy (fun _ => .obj [] false) 0 (.arr (.opt .bool)) = some (.arr (.null .bool)) ∧
    toJson {} (fun _ => .obj [] false) (.arr (.opt .bool)) (.arr [.none])
      = .ok (JVal.arr [] (.cons [] .null [] .nil)).text ∧
    ¬ SchemaAccepts D {} (.arr (.null .bool)) asc! "i" asc! "t" (.arr [] (.cons [] .null [] .nil)) := by
  refine ⟨rfl, by decide +kernel, ?_⟩
  rw [schemaAccepts_iff (by exact trivial) (plainBody (by decide)) (plainBody (by decide)) rfl]
  simp [SVal, JVal.elems, JElems.toList]

/-! ## C68 -/

/-- **C68, partial.**  Every document without `null` that means a value of a type is valid against what `to_json_schema` writes
for the type.  Missing: documents with `null` for a nullable member, see `C68_false_for_null_members`; names with escapes; what
is missing in C65 and C66. -/
theorem C68_read_is_valid_partial (D : Draft) (w : WCfg) (t : TCfg) (hesc : t.escNames = false) (Δ : Env) (hΔ : Writable Δ)
    (hp : PlainMapped Δ) (ty : Ty) (d : JVal) (v : Val) (hr : Reads Δ (Usable t) t.exactAll ty d v) (hd : d.noNull) (f : Nat)
    (s : STy) (hs : schemaTy Δ f ty = some s) (hD : s.Sound D) (he : s.isEmptyClass = false) (id title : Bytes)
    (hi : IsStrBody id) (ht : IsStrBody title) : SchemaAccepts D w s id title d := by
  have hsat := sat_with (sat_ref (nm := Usable t) (ea := t.exactAll) (D := D)
    (fun _ _ h => h.1.resolve_right (by simp [hesc]))
    (fun i ms ex h m hm => ⟨hp i ms ex h m hm, hΔ.names i ms ex h m hm⟩) f) ty s hs
  exact (schemaAccepts_iff (schemaTyWith_names (schemaRef_names hΔ.names f) ty s hs) hi ht he).2 (hsat.1 hD d v hd hr)

/-- `{"f":[false],"x":1}`, a document of type `P`. -/
def exSDoc : JVal :=
  .obj [] (.cons [] asc! "f" [] [] (.arr [] (.cons [] .fls [] .nil)) [] (.cons [] asc! "x" [] [] (.num asc! "1") [] .nil))

theorem exSDoc_reads : Reads exSEnv (Usable {}) false (.ref 0) exSDoc (.cls [.int 1, .none, .arr [.bool false]]) := by
  refine .obj (ms := [⟨asc! "x", .int ⟨32, false⟩ false⟩, ⟨asc! "s", .opt (.str false)⟩, ⟨asc! "f", .arr .bool⟩]) (ex := false)
    rfl ?_ (by decide) (by simp) ?_
  · intro n hn
    refine usable_own ?_ (Or.inl ?_) <;> revert n
    · decide
    · unfold PlainName
      decide
  · refine .found (d := .num asc! "1") rfl (.int (by decide) (by decide) ?_) (.absent rfl rfl
      (.found (d := .arr [] (.cons [] .fls [] .nil)) rfl (.arr (fun h => (by cases h)) (.cons .fls .nil)) .nil))
    exact ⟨Or.inr ⟨⟨by decide, by unfold IsDig; decide⟩, by decide⟩, by decide⟩

/-- Non-vacuity: the document above, which does not have the members in mapping order. -/
theorem exSDoc_accepted : SchemaAccepts .d2020 {} (.obj (.cons asc! "x" none .unsigned (.cons asc! "s" none (.null .string)
    (.cons asc! "f" none (.arr .bool) .nil)))) asc! "p" asc! "P" exSDoc :=
  C68_read_is_valid_partial _ _ {} rfl exSEnv exSEnv_writable exSEnv_plain _ _ _ exSDoc_reads
    (by simp [exSDoc, JVal.noNull, JMems.noNull, JElems.noNull]) 1 _ rfl
    (by
      refine ⟨by decide, ?_⟩
      simp [SMems.Sound, STy.Sound]) rfl _ _ (plainBody (by decide)) (plainBody (by decide))

/-- `struct O { optional<bool> b; }`. -/
def exOEnv : Env := fun _ => .obj [⟨asc! "b", .opt .bool⟩] false

/-- `{"b":null}` is read as an `O` without `b`, but is not valid against the schema of `O`, in any draft: `b` has to be a
boolean if it is there. -/
theorem C68_false_for_null_members (D : Draft) :
    fromJson {} exOEnv 3 (.ref 0) (JVal.obj [] (.cons [] asc! "b" [] [] .null [] .nil)).text = .ok (.cls [.none]) ∧
    schemaTy exOEnv 1 (.ref 0) = some (.obj (.cons asc! "b" none (.null .bool) .nil)) ∧
    ¬ SchemaAccepts D {} (.obj (.cons asc! "b" none (.null .bool) .nil)) asc! "i" asc! "t"
      (.obj [] (.cons [] asc! "b" [] [] .null [] .nil)) := by
  refine ⟨by decide +kernel, rfl, ?_⟩
  rw [schemaAccepts_iff (by exact ⟨plainBody (by decide), by simp, trivial, trivial⟩) (plainBody (by decide))
    (plainBody (by decide)) rfl, SVal]
  intro h
  have h := (h rfl).2.1
  rw [SProp] at h
  have := h.1 (asc! "b", .null) (by simp [JVal.mems, JMems.toList]) (sameName_refl (plainBody (by decide)) (by unfold PlainName; decide))
  simp [SVal] at this

/-! ## C69 -/

/-- **C69, partial.**  A document that is valid against what `to_json_schema` writes for a type is read by `from_json`.  Missing:
what a schema cannot say or this one does not say, which is `Fit`: integers have to be in range and written as such, arrays read
as tuples must have the right number of elements (see `C69_false_for_short_tuples`), names must not be repeated, escapes in
strings must be meaningful. -/
theorem C69_valid_is_read_partial (D : Draft) (w : WCfg) (t : TCfg) (hck : t.cfg.checked = true) (hesc : t.escNames = false)
    (Δ : Env) (hΔ : Writable Δ) (hp : PlainMapped Δ) (ty : Ty) (f : Nat) (s : STy) (hs : schemaTy Δ f ty = some s)
    (he : s.isEmptyClass = false) (id title : Bytes) (hi : IsStrBody id) (ht : IsStrBody title) (d : JVal) (hw : d.WF)
    (hf : d.Fits) (hfit : Fit Δ (Usable t) t.exactAll f ty d) (hv : SchemaAccepts D w s id title d)
    (hew : ∀ v, Reads Δ (Usable t) t.exactAll ty d v → EndsWell d v) :
    ∃ v, ∃ f0, ∀ f, f0 ≤ f → fromJson t Δ f ty d.text = .ok v := by
  have hsur := sur_with (sur_ref (nm := Usable t) (ea := t.exactAll) (D := D)
    (fun _ _ h => h.1.resolve_right (by simp [hesc]))
    (fun i ms ex h m hm => ⟨hp i ms ex h m hm, hΔ.names i ms ex h m hm⟩) f) ty s hs
  rw [schemaAccepts_iff (schemaTyWith_names (schemaRef_names hΔ.names f) ty s hs) hi ht he] at hv
  obtain ⟨v, hr⟩ := hsur.1 d hw hfit hv
  exact ⟨v, C50_from_json_reads t hck Δ hΔ.nodup ty d v hr hw hf (hew v hr)⟩

theorem exSDoc_fit : Fit exSEnv (Usable {}) false 1 (.ref 0) exSDoc := by
  show FitRef exSEnv (Usable {}) false 1 0 exSDoc
  rw [FitRef]
  refine ⟨fun h => (by cases h), ?_⟩
  intro w jm h
  cases h
  refine ⟨?_, by decide, fun h => (by cases h), ?_⟩
  · intro n hn
    refine usable_own ?_ (Or.inl ?_) <;> revert n
    · decide
    · unfold PlainName
      decide
  · intro m hm e he
    simp only [List.mem_cons, List.not_mem_nil, or_false] at hm
    rcases hm with rfl | rfl | rfl
    · cases he
      exact ⟨by decide, 1, ⟨Or.inr ⟨⟨by decide, by unfold IsDig; decide⟩, by decide⟩, by decide⟩, by decide⟩
    · cases he
    · cases he
      intro e _
      cases e <;> trivial

/-- Non-vacuity: `{"f":[false],"x":1}` is valid against the schema of `P`, and is read. -/
example : ∃ v, ∃ f0, ∀ f, f0 ≤ f → fromJson {} exSEnv f (.ref 0) exSDoc.text = .ok v :=
  C69_valid_is_read_partial .d2020 {} {} rfl rfl exSEnv exSEnv_writable exSEnv_plain (.ref 0) 1 _ rfl rfl asc! "p" asc! "P"
    (plainBody (by decide)) (plainBody (by decide)) exSDoc
    (by
      refine ⟨Or.inl ws_empty, ws_empty, plainBody (by decide), ws_empty, ws_empty, ⟨Or.inl ws_empty, ws_empty, trivial, ws_empty,
        trivial⟩, ws_empty, ws_empty, plainBody (by decide), ws_empty, ws_empty, ?_, ws_empty, trivial⟩
      exact ⟨[], asc! "1", [], [], Or.inl rfl, Or.inr ⟨⟨by decide, by unfold IsDig; decide⟩, by decide⟩, Or.inl rfl, Or.inl rfl,
        rfl⟩)
    ⟨by decide, by decide⟩ exSDoc_fit exSDoc_accepted (fun v h => h.endsWell (by simp [exSDoc]) (by simp [exSDoc, JVal.IsLit]))

/-- `tuple<bool, bool>`. -/
def exTupEnv : Env := fun _ => .tup [.bool, .bool] false

/-- The empty array is valid against the schema of a tuple of two, but is not read as one: the schema does not say how many
elements there must be. -/
theorem C69_false_for_short_tuples :
    schemaTy exTupEnv 1 (.ref 0) = some (.tup (.cons .bool (.cons .bool .nil))) ∧
    SchemaAccepts .upTo2019 {} (.tup (.cons .bool (.cons .bool .nil))) asc! "i" asc! "t" (.arr [] .nil) ∧
    fromJson {} exTupEnv 5 (.ref 0) (JVal.arr [] .nil).text = .err .invalidLiteral := by
  refine ⟨rfl, ?_, by decide +kernel⟩
  rw [schemaAccepts_iff (by exact ⟨trivial, trivial, trivial⟩) (plainBody (by decide)) (plainBody (by decide)) rfl]
  simp [SVal, SPos, JVal.elems, JElems.toList]

end Verif
