import Verif.Props.Typed
import Verif.Proof.ValueRange
import Verif.Proof.ValueState

/-!
# Properties C26–C31: untyped values, paths, cached lookups

The theorems are about the checked parser (the default).  `d.text ++ k` is the text of a value `d` followed by the rest
`k` of the document.  `NamesOk`: names are written without escapes unless `AllowEscapedNames` is set.
-/

namespace Verif

open Spec

/-! ## C31 -/

/-- **C31.**  `json_value( text ).type( )` is the kind of the value, whitespace in front or not, checked or not. -/
theorem C31_type (cfg : Cfg) (d : JVal) (hd : d.WF) (w k : Bytes) (hw : IsWs w) :
    ∃ jv, jvMake cfg (w ++ (d.text ++ k)) = .ok jv ∧ jvType cfg jv = .ok d.kind := by
  refine ⟨d.text ++ k, ?_, jvType_text cfg hd k⟩
  have h1 : trimChecked (w ++ (d.text ++ k)) = d.text ++ k := by
    rw [trimChecked_ws _ _ hw, trimChecked_text d hd]
  unfold jvMake trim
  cases cfg.checked with
  | true => simp [h1]
  | false =>
    obtain ⟨x, r, hx⟩ : ∃ x r, d.text ++ k = x :: r := by
      have := text_length_pos hd
      cases h : d.text with
      | nil => simp [h] at this
      | cons x r => exact ⟨x, r ++ k, rfl⟩
    rw [hx] at h1 ⊢
    simpa using trimUnchecked_of_checked h1

/-- Non-vacuity: ` {"x":[7] , …}` is a class. -/
example : ∃ jv, jvMake {} ([0x20] ++ (exDoc.text ++ [])) = .ok jv ∧ jvType {} jv = .ok .cls :=
  C31_type {} exDoc exDoc_wf [0x20] [] ws_sp

/-! ## C26 -/

/-- The text that `get_state` and `get_string_view` give for a value. -/
theorem value_text {t : TCfg} (hck : t.cfg.checked = true) {e : JVal} (he : DOk false e) {k : Bytes} (hk : AfterValue k) (hne : k ≠ []) :
    jvState t.cfg (e.text ++ k) = .ok (rangeText true e) ∧ jvStringView t.cfg (e.text ++ k) = .ok (rangeText false e) := by
  obtain ⟨r, h1, h2, -⟩ := skipValue_exact t.cfg false e he.wf he.depth k hk (fun h => by simp [hck] at h)
    (fun _ h => by simp [hck] at h) (fun _ => hne)
  refine ⟨?_, by simp [jvStringView, h1, h2]⟩
  simp only [jvState, h1, Res.ok_bind, jvType_text _ he.wf, h2]
  match e with
  | .str b =>
    have : ((JVal.str b).text ++ k).take (b.length + 2) = (JVal.str b).text := by
      rw [List.take_append_of_le_length (by simp [JVal.text])]
      exact List.take_of_length_le (by simp [JVal.text])
    simp only [JVal.kind, if_true, rangeText, Bool.false_eq_true, if_false, this]
    rfl
  | .null | .tru | .fls | .num _ | .arr _ .nil | .arr _ (.cons ..) | .obj _ .nil | .obj _ (.cons ..) => simp [JVal.kind, rangeText]

/-- **C26, partial.**  Iteration visits the members or elements once each, in order, and then ends; each comes with its
name and with a value that stands at its text.  The text as handed out by `get_state` is exact (`get_string_view` is the
same but for the quotes around a string), except that of `null`, which is empty: see `C26_null_has_no_text`. -/
theorem C26_iteration_partial (t : TCfg) (hck : t.cfg.checked = true) (d : JVal) (hc : d.isContainer = true) (hd : d.WF) (hf : d.Fits)
    (hn : d.NamesOk t.escNames) (k : Bytes) :
    ∃ it ps, jvBegin t.cfg (d.text ++ k) = .ok it ∧ iterAll t it = .ok ps ∧ ps.length = d.items.length ∧
      ∀ (i : Nat) (n : Option Bytes) (e : JVal), d.items[i]? = some (n, e) → ∃ k', ps[i]? = some (n, e.text ++ k') ∧
        AfterValue k' ∧ (e ≠ .null → jvState t.cfg (e.text ++ k') = .ok e.text) ∧
        (∀ b, e = .str b → jvStringView t.cfg (e.text ++ k') = .ok b) ∧
        (e ≠ .null → e.kind ≠ .string → jvStringView t.cfg (e.text ++ k') = .ok e.text) := by
  obtain ⟨it, h1, h2⟩ := jvBegin_cur hck hc (dok_of hd hf) hn k
  obtain ⟨ps, h3, h4, h5⟩ := iterAll_cur _ it h2
  refine ⟨it, ps, h1, h3, h4, ?_⟩
  intro i n e hi
  obtain ⟨⟨n', v⟩, hq, hn', k', hv, hka, hkn⟩ := h5 i _ hi
  simp only at hn' hv
  subst hn' hv
  obtain ⟨he, -⟩ := items_ok (dok_of hd hf) hn _ (List.mem_of_getElem? hi)
  obtain ⟨h6, h7⟩ := value_text hck he hka hkn
  refine ⟨k', hq, hka, fun hnull => ?_, fun b hb => ?_, fun hnull hs => ?_⟩
  · rw [h6]; cases e <;> simp_all [rangeText, JVal.text]
  · subst hb; rw [h7]; simp [rangeText]
  · rw [h7]; cases e <;> simp_all [rangeText, JVal.text, JVal.kind]

theorem exDoc_names (esc : Bool) : exDoc.NamesOk esc := by
  simp [exDoc, exJm, exSeven, exArr, exNum, JVal.NamesOk, JVal.allNames, JMems.allNames, JElems.allNames, PlainName]

/-- Non-vacuity: the second member of `{"x":[7] , "c":[{"a":0}],"a": -12}` is `c`, with its text. -/
example : ∃ it ps v, jvBegin {} (exDoc.text ++ []) = .ok it ∧ iterAll {} it = .ok ps ∧ ps.length = 3 ∧
    ps[1]? = some (some [0x63], v) ∧ jvState {} v = .ok exArr.text := by
  obtain ⟨it, ps, h1, h2, h3, h4⟩ := C26_iteration_partial {} rfl exDoc rfl exDoc_wf exDoc_fits (exDoc_names _) []
  obtain ⟨k', h5, -, h6, -⟩ := h4 1 (some [0x63]) exArr rfl
  exact ⟨it, ps, _, h1, h2, h3, h5, h6 (by simp [exArr])⟩

/-- The text of the `null` in `[null]`, as given by `get_string_view` and `get_state`, is empty. -/
theorem C26_null_has_no_text :
    jvBegin {} (JVal.arr [] (.cons [] .null [] .nil)).text = .ok ⟨chLBrack, JVal.null.text ++ [chRBrack]⟩ ∧
    (JIter.mk chLBrack (JVal.null.text ++ [chRBrack])).get {} = .ok (none, JVal.null.text ++ [chRBrack]) ∧
    jvStringView {} (JVal.null.text ++ [chRBrack]) = .ok [] ∧ jvState {} (JVal.null.text ++ [chRBrack]) = .ok [] := by
  decide +kernel

/-! ## C27 -/

/-- **C27, partial** (with the next two).  Lookup by name in an object gives the first member with that name, or a value
of no type (default constructed) if there is none. -/
theorem C27_find_member_partial (t : TCfg) (hck : t.cfg.checked = true) (w : Bytes) (ms : JMems) (hd : (JVal.obj w ms).WF)
    (hf : (JVal.obj w ms).Fits) (hn : (JVal.obj w ms).NamesOk t.escNames) (k name : Bytes) (hp : PlainName name) :
    (name ∉ ms.names → findClassMember t ((JVal.obj w ms).text ++ k) name = .ok []) ∧
    (∀ e, ms.get? name = some e → ∃ k', findClassMember t ((JVal.obj w ms).text ++ k) name = .ok (e.text ++ k') ∧ AfterValue k') := by
  have hfil : name.filter (fun c => c != chBslash) = name := by
    rw [List.filter_eq_self]
    intro c hc
    simp only [bne_iff_ne, ne_eq]
    rintro rfl
    exact hp hc
  have := findClassMember_obj hck (dok_of hd hf) hn k name (fun h => hp (List.mem_of_getLast? h))
  rw [hfil] at this
  refine ⟨fun h => this.1 (JMems_get?_none.2 h), fun e he => ?_⟩
  obtain ⟨k', h1, h2, -⟩ := this.2 e he
  exact ⟨k', h1, h2⟩

/-- The name looked for may have its delimiters escaped, as in a path. -/
theorem C27_find_escaped_member_partial (t : TCfg) (hck : t.cfg.checked = true) (w : Bytes) (ms : JMems) (hd : (JVal.obj w ms).WF)
    (hf : (JVal.obj w ms).Fits) (hn : (JVal.obj w ms).NamesOk t.escNames) (k name : Bytes) (hp : PlainName name) :
    (name ∉ ms.names → findClassMember t ((JVal.obj w ms).text ++ k) (escName name) = .ok []) ∧
    (∀ e, ms.get? name = some e →
      ∃ k', findClassMember t ((JVal.obj w ms).text ++ k) (escName name) = .ok (e.text ++ k') ∧ AfterValue k') := by
  have := findClassMember_obj hck (dok_of hd hf) hn k (escName name) (escName_last hp)
  rw [escName_filter hp] at this
  refine ⟨fun h => this.1 (JMems_get?_none.2 h), fun e he => ?_⟩
  obtain ⟨k', h1, h2, -⟩ := this.2 e he
  exact ⟨k', h1, h2⟩

/-- **C27, partial.**  Lookup by index gives the member or element with that index; if there is none, a value of no
type.  Missing: an object and the index one past its last member, see `C27_object_end_throws`. -/
theorem C27_find_element_partial (t : TCfg) (hck : t.cfg.checked = true) (d : JVal) (hc : d.isContainer = true) (hd : d.WF) (hf : d.Fits)
    (hn : d.NamesOk t.escNames) (k : Bytes) (i : Nat) :
    (∀ n e, d.items[i]? = some (n, e) → ∃ k', findElement t (d.text ++ k) i = .ok (e.text ++ k') ∧ AfterValue k') ∧
    (d.items.length ≤ i → d.kind = .array ∨ d.items.length ≠ i → ∃ v, findElement t (d.text ++ k) i = .ok v ∧ jvType t.cfg v = .ok .none) := by
  refine ⟨fun n e hi => ?_, fun hge hk => ?_⟩
  · obtain ⟨k', h1, h2, -⟩ := findElement_in hck hc (dok_of hd hf) hn k i n e hi
    exact ⟨k', h1, h2⟩
  · rcases Nat.lt_or_eq_of_le hge with hlt | heq
    · exact ⟨[], findElement_past hck hc (dok_of hd hf) hn k i hlt, rfl⟩
    · rcases hk with hk | hk
      · match d with
        | .null | .tru | .fls | .num _ | .str _ | .obj .. => simp [JVal.kind] at hk
        | .arr w es =>
          obtain ⟨k', h1⟩ := findElement_end hck (dok_of hd hf) hn k
          simp only [JVal.items, List.length_map] at heq
          rw [heq] at h1
          exact ⟨_, h1, by simp [jvType, isDigit, parseDigit]⟩
      · exact absurd heq hk

/-- Non-vacuity: `a` in `{"x":[7] , "c":[{"a":0}],"a": -12}` is `-12`; so is the member with index 2. -/
example : (∃ k', findClassMember {} (exDoc.text ++ []) [0x61] = .ok (exNum.text ++ k') ∧ AfterValue k') ∧
    (∃ k', findElement {} (exDoc.text ++ []) 2 = .ok (exNum.text ++ k') ∧ AfterValue k') :=
  ⟨(C27_find_member_partial {} rfl [] exJm exDoc_wf exDoc_fits (exDoc_names _) [] [0x61] (by unfold PlainName; decide)).2 exNum rfl,
   (C27_find_element_partial {} rfl exDoc rfl exDoc_wf exDoc_fits (exDoc_names _) [] 2).1 (some [0x61]) exNum rfl⟩

/-- `find_element( 1 )` on `{"a":0}` throws, `find_element( 2 )` does not. -/
theorem C27_object_end_throws :
    findElement {} (JVal.obj [] (.cons [] [0x61] [] [] (.num [0x30]) [] .nil)).text 1 = .err .invalidMemberName ∧
    findElement {} (JVal.obj [] (.cons [] [0x61] [] [] (.num [0x30]) [] .nil)).text 2 = .ok [] := by
  decide +kernel

/-! ## C28 -/

/-- **C28, partial** (with the theorems that follow).  A path from a value leads to what is found by following its
components one at a time. -/
theorem C28_find_member_partial (t : TCfg) (hck : t.cfg.checked = true) (d e : JVal) (hd : d.WF) (hf : d.Fits) (hn : d.NamesOk t.escNames)
    (ss : List Step) (hss : ∀ s ∈ ss, s.Ok) (k : Bytes) (hk : AfterValue k) (h : d.follow ss = some e) :
    ∃ k', jvFind t (d.text ++ k) (pathText ss) = .ok (e.text ++ k') ∧ AfterValue k' := by
  obtain ⟨k', h1, h2, -⟩ := jvFind_follow hck ss hss (dok_of hd hf) hn k hk h
  exact ⟨k', h1, h2⟩

/-- The value of no type is the result if a component is missing: a name in any value, or an index in an array or, more
than one past the end, in an object.  Missing: an index into a scalar, see `C28_index_into_string`, and the index one past
the end of an object, see `C27_object_end_throws`. -/
theorem C28_find_member_missing_partial (t : TCfg) (hck : t.cfg.checked = true) (d e : JVal) (hd : d.WF) (hf : d.Fits)
    (hn : d.NamesOk t.escNames) (pre : List Step) (s : Step) (post : List Step) (hss : ∀ s' ∈ pre ++ s :: post, s'.Ok) (k : Bytes)
    (h : d.follow pre = some e) (hm : e.step s = none)
    (hi : ∀ ds, s = .index ds → e.kind = .array ∨ (e.kind = .cls ∧ e.items.length < decVal ds)) :
    ∃ v, jvFind t (d.text ++ k) (pathText (pre ++ s :: post)) = .ok v ∧ jvType t.cfg v = .ok .none :=
  jvFind_missing hck pre s post hss (dok_of hd hf) hn k h ⟨hm, hi⟩

/-- `c[0].a` -/
def exPath : List Step := [.name [0x63], .index [0x30], .name [0x61]]

theorem exPath_ok : ∀ s ∈ exPath, s.Ok := by
  intro s hs
  simp only [exPath, List.mem_cons, List.not_mem_nil, or_false] at hs
  rcases hs with rfl | rfl | rfl
  · exact ⟨by simp, by simp⟩
  · refine ⟨⟨by simp, ?_⟩, by decide⟩
    intro c hc
    simp only [List.mem_singleton] at hc
    subst hc
    unfold IsDig; decide
  · exact ⟨by simp, by simp⟩

/-- The text of the path. -/
example : pathText exPath = [0x63, 0x5B, 0x30, 0x5D, 0x2E, 0x61] := by decide

/-- Non-vacuity: `c[0].a` in `{"x":[7] , "c":[{"a":0}],"a": -12}` is `0`, and there is no `c[0].a.b`. -/
example : (∃ k', jvFind {} (exDoc.text ++ []) (pathText exPath) = .ok ([0x30] ++ k') ∧ AfterValue k') ∧
    ∃ v, jvFind {} (exDoc.text ++ []) (pathText (exPath ++ .name [0x62] :: [])) = .ok v ∧ jvType {} v = .ok .none := by
  refine ⟨C28_find_member_partial {} rfl exDoc (.num [0x30]) exDoc_wf exDoc_fits (exDoc_names _) exPath exPath_ok [] afterValue_nil rfl,
    C28_find_member_missing_partial {} rfl exDoc (.num [0x30]) exDoc_wf exDoc_fits (exDoc_names _) exPath (.name [0x62]) []
      ?_ [] rfl rfl (by simp)⟩
  intro s hs
  rcases List.mem_append.1 hs with hs | hs
  · exact exPath_ok s hs
  · simp only [List.mem_singleton] at hs
    subst hs
    exact ⟨by simp, by simp⟩

/-- `{"a":"",":5":1}` has no `a[0]`, but looking for it finds the number `5":1}`. -/
theorem C28_index_into_string :
    (JVal.obj [] (.cons [] [0x61] [] [] (.str []) [] (.cons [] [0x3A, 0x35] [] [] (.num [0x31]) [] .nil))).follow
      [.name [0x61], .index [0x30]] = none ∧
    jvFind {} (JVal.obj [] (.cons [] [0x61] [] [] (.str []) [] (.cons [] [0x3A, 0x35] [] [] (.num [0x31]) [] .nil))).text
      (pathText [.name [0x61], .index [0x30]]) = .ok [0x35, 0x22, 0x3A, 0x31, 0x7D] ∧
    jvType {} [0x35, 0x22, 0x3A, 0x31, 0x7D] = .ok .number := by
  refine ⟨rfl, ?_, ?_⟩ <;> decide +kernel

/-- `from_json<T>( doc, path )` gives the value that the document at the path means.  (Not with `MustVerifyEndOfDataIsValid`,
see `C28_verify_end_false`.) -/
theorem C28_from_json_at_path_partial (t : TCfg) (hck : t.cfg.checked = true) (hve : t.verifyEnd = false) (Δ : Env) (henv : EnvOk Δ) (ty : Ty)
    (d e : JVal) (v : Val) (hd : d.WF) (hf : d.Fits) (hn : d.NamesOk t.escNames) (ss : List Step) (hss : ∀ s ∈ ss, s.Ok)
    (w k : Bytes) (hw : IsWs w) (hk : AfterValue k) (h : d.follow ss = some e) (hr : Reads Δ (Usable t) t.exactAll ty e v)
    (hew : EndsWell e v) : ∃ f0, ∀ f, f0 ≤ f → fromJsonPath t Δ f ty (pathText ss) (w ++ (d.text ++ k)) = .ok v := by
  have hdo := dok_of hd hf
  obtain ⟨k', h1, h2, he, -⟩ := jvFind_follow hck ss hss hdo hn (dropNul k) (afterValue_dropNul hk) h
  obtain ⟨f0, hf0⟩ := reads_sem hck henv usable_nameOk rfl hr he
  refine ⟨f0, fun f hf' => ?_⟩
  obtain ⟨r, hr', -⟩ := (hf0 f hf').1 k' (fun _ => ⟨h2, fun _ => hew⟩) (by simp [hck])
  have hne := text_ne_empty hd (dropNul k)
  have hemp : (w ++ (d.text ++ k)).isEmpty = false := by
    have := text_ne_empty hd k
    cases hh : w ++ (d.text ++ k) with
    | nil => simp at hh; simp [hh] at this
    | cons => rfl
  have hnul : (if (w ++ (d.text ++ k)).getLast? = some 0 then (w ++ (d.text ++ k)).dropLast else w ++ (d.text ++ k)) =
      w ++ (d.text ++ dropNul k) := by
    have hx := dropNul_append hd k
    have hl : (w ++ (d.text ++ k)).getLast? = (d.text ++ k).getLast? := by
      have hne2 := text_ne_empty hd k
      rw [List.getLast?_append]
      cases hh : d.text ++ k with
      | nil => simp [hh] at hne2
      | cons a b => rw [List.getLast?_eq_some_getLast (by simp)]; rfl
    rw [hl, ← hx]
    unfold dropNul
    split
    · rw [List.dropLast_append_of_ne_nil]
      intro hh
      have := text_ne_empty hd k
      simp [hh] at this
    · rfl
  have hkind : ¬ e.kind = .none := by cases e <;> simp [JVal.kind]
  have htrim : trimChecked (w ++ (d.text ++ dropNul k)) = d.text ++ dropNul k := by
    rw [trimChecked_ws _ _ hw, trimChecked_text d hd]
  unfold fromJsonPath
  simp only [hemp, Bool.not_false, ensure_true, Res.ok_bind, hnul, jvMake, trim_ck hck, htrim, h1, jvType_text _ he.wf, hkind, false_and,
    if_false, hr', hve, Bool.false_eq_true]
  rw [show (e.kind != Kind.none) = true by simpa using hkind]
  rfl

/-- If a component is missing a nullable type gives the empty value, any other is an error. -/
theorem C28_from_json_missing_partial (t : TCfg) (hck : t.cfg.checked = true) (Δ : Env) (ty : Ty) (f : Nat)
    (d e : JVal) (hd : d.WF) (hf : d.Fits) (hn : d.NamesOk t.escNames) (pre : List Step) (s : Step) (post : List Step)
    (hss : ∀ s' ∈ pre ++ s :: post, s'.Ok) (h : d.follow pre = some e) (hm : e.step s = none)
    (hi : ∀ ds, s = .index ds → e.kind = .array ∨ (e.kind = .cls ∧ e.items.length < decVal ds)) :
    fromJsonPath t Δ f ty (pathText (pre ++ s :: post)) d.text = if ty.isOpt then .ok .none else .err .jsonPathNotFound := by
  obtain ⟨v, h1, h2⟩ := C28_find_member_missing_partial t hck d e hd hf hn pre s post hss [] h hm hi
  have hemp : d.text.isEmpty = false := by simpa using text_ne_empty hd []
  have hnul : (if d.text.getLast? = some 0 then d.text.dropLast else d.text) = d.text := if_neg (text_last hd)
  have htrim : trimChecked d.text = d.text := by simpa using trimChecked_text d hd (k := [])
  rw [List.append_nil] at h1
  unfold fromJsonPath
  simp only [hemp, Bool.not_false, ensure_true, Res.ok_bind, hnul, jvMake, trim_ck hck, htrim, h1, h2]
  cases ty.isOpt <;> simp [ensure]

/-- Non-vacuity: reading `c[0]` of the document as `S` gives `S{ 0, {}, {} }`, by evaluating the model … -/
example : fromJsonPath {} exEnv 10 (.ref 0) (pathText [.name [0x63], .index [0x30]]) exDoc.text
    = .ok (.cls [.int 0, .none, .none]) := by decide +kernel

/-- … and from the theorem, for `c[0].a` as an integer. -/
example : ∃ f0, ∀ f, f0 ≤ f → fromJsonPath {} exEnv f (.int exI32 false) (pathText exPath) ([0x20] ++ (exDoc.text ++ [0x20])) = .ok (.int 0) :=
  C28_from_json_at_path_partial {} rfl rfl exEnv exEnv_ok _ exDoc (.num [0x30]) _ exDoc_wf exDoc_fits (exDoc_names _) exPath exPath_ok
    [0x20] [0x20] ws_sp ⟨[0x20], [], ws_sp, rfl, Or.inl rfl⟩ rfl (.int (by decide) (by decide) exZero_numeral)
    (endsWell_of rfl)

/-- With `MustVerifyEndOfDataIsValid::yes` nothing can be read from inside a document: what follows the member is taken
for trailing garbage. -/
theorem C28_verify_end_false :
    fromJsonPath { verifyEnd := true } exEnv 10 (.int exI32 false) (pathText exPath) exDoc.text = .err .invalidEndOfValue := by
  decide +kernel

/-- The path given to the array iterators and to sized arrays, `find_range`: for paths where an index comes after a name,
such as `a.b[2].c`, with the indices going into arrays.  Missing: all other paths, see `C28_find_range_false`. -/
theorem C28_find_range_partial (t : TCfg) (hck : t.cfg.checked = true) (d e : JVal) (hd : d.WF) (hf : d.Fits) (hn : d.NamesOk t.escNames)
    (ss : List Step) (hss : ∀ s ∈ ss, s.Ok ∧ s.Short) (hp : DottedPath ss) (w k : Bytes) (hw : IsWs w) (hk : AfterValue k)
    (h : d.followArr ss = some e) :
    ∃ k', findRange t (pathText ss) (w ++ (d.text ++ k)) = .ok (some (e.text ++ k')) ∧ AfterValue k' := by
  have htrim : trimChecked (w ++ (d.text ++ k)) = d.text ++ k := by
    rw [trimChecked_ws _ _ hw, trimChecked_text d hd]
  obtain ⟨k', h1, h2⟩ := findRange2_follow hck ss hss (afterName_of hp) (dok_of hd hf) hn k hk h
  rw [restText_dotted hp] at h1
  refine ⟨k', ?_, h2⟩
  unfold findRange
  rw [htrim]
  split
  · rename_i hh
    rcases hh with hh | hh
    · have := text_ne_empty hd k
      simp [hh] at this
    · rw [hh, findRange2_nil] at h1; exact h1
  · exact h1

/-- `find_range` reports a missing component: a name in an object that has members, an index more than one past the end
of an array that has elements. -/
theorem C28_find_range_missing_partial (t : TCfg) (hck : t.cfg.checked = true) (d e : JVal) (hd : d.WF) (hf : d.Fits)
    (hn : d.NamesOk t.escNames) (pre : List Step) (s : Step) (post : List Step) (hss : ∀ s' ∈ pre ++ s :: post, s'.Ok ∧ s'.Short)
    (hp : DottedPath (pre ++ s :: post)) (k : Bytes) (h : d.followArr pre = some e)
    (hm : (∃ n w ms, s = .name n ∧ e = .obj w ms ∧ ms ≠ .nil ∧ n ∉ ms.names) ∨
      ∃ ds w es, s = .index ds ∧ e = .arr w es ∧ es ≠ .nil ∧ es.toList.length < decVal ds) :
    findRange t (pathText (pre ++ s :: post)) (d.text ++ k) = .ok none := by
  have htrim : trimChecked (d.text ++ k) = d.text ++ k := trimChecked_text d hd k
  have hm' : MissingArr e s := by
    rcases hm with ⟨n, w, ms, rfl, rfl, h1, h2⟩ | ⟨ds, w, es, rfl, rfl, h1, h2⟩
    · exact ⟨w, ms, rfl, h1, JMems_get?_none.2 h2⟩
    · exact ⟨w, es, rfl, h1, h2⟩
  have h1 := findRange2_missing hck pre s post hss (afterName_of hp) (dok_of hd hf) hn k h hm'
  rw [restText_dotted hp] at h1
  unfold findRange
  rw [htrim]
  split
  · rename_i hh
    rcases hh with hh | hh
    · have := text_ne_empty hd k
      simp [hh] at this
    · rw [hh, findRange2_nil] at h1; exact absurd h1 (by simp)
  · exact h1

theorem exPath_short : ∀ s ∈ exPath, s.Ok ∧ s.Short := by
  intro s hs
  refine ⟨exPath_ok s hs, ?_⟩
  simp only [exPath, List.mem_cons, List.not_mem_nil, or_false] at hs
  rcases hs with rfl | rfl | rfl
  · trivial
  · exact (by decide : [(0x30 : UInt8)].length ≤ 64)
  · trivial

/-- Non-vacuity: `c[0].a` in `{"x":[7] , "c":[{"a":0}],"a": -12}`, and there is no `c[0].b`. -/
example : (∃ k', findRange {} (pathText exPath) ([0x20] ++ (exDoc.text ++ [])) = .ok (some ([0x30] ++ k')) ∧ AfterValue k') ∧
    findRange {} (pathText ([.name [0x63], .index [0x30]] ++ .name [0x62] :: [])) (exDoc.text ++ []) = .ok none := by
  refine ⟨C28_find_range_partial {} rfl exDoc (.num [0x30]) exDoc_wf exDoc_fits (exDoc_names _) exPath exPath_short
      (by simp [exPath, DottedPath]) [0x20] [] ws_sp afterValue_nil rfl,
    C28_find_range_missing_partial {} rfl exDoc (.obj [] (.cons [] [0x61] [] [] (.num [0x30]) [] .nil)) exDoc_wf exDoc_fits (exDoc_names _)
      [.name [0x63], .index [0x30]] (.name [0x62]) [] ?_ (by simp [DottedPath]) [] rfl
      (Or.inl ⟨[0x62], [], _, rfl, rfl, by simp, by simp [JMems.names, JMems.toList]⟩)⟩
  intro s hs
  simp only [List.cons_append, List.nil_append, List.mem_cons, List.not_mem_nil, or_false] at hs
  rcases hs with rfl | rfl | rfl
  · exact exPath_short _ (by simp [exPath])
  · exact exPath_short _ (by simp [exPath])
  · exact ⟨⟨by simp, by simp⟩, trivial⟩

/-- Where `find_range` is wrong: `[0]` is the document itself; the second of two indices is ignored; the index one past
the end is found; a name in an empty object is an exception and not "not found". -/
theorem C28_find_range_false :
    -- `[0]` in `[7]`
    findRange {} (pathText [.index [0x30]]) exSeven.text = .ok (some exSeven.text) ∧
    -- `a[0][0]` in `{"a":[[7]]}`
    findRange {} (pathText [.name [0x61], .index [0x30], .index [0x30]])
      (JVal.obj [] (.cons [] [0x61] [] [] (.arr [] (.cons [] exSeven [] .nil)) [] .nil)).text
      = .ok (some (exSeven.text ++ [0x5D, 0x7D])) ∧
    -- `a[1]` in `{"a":[7]}`
    findRange {} (pathText [.name [0x61], .index [0x31]]) (JVal.obj [] (.cons [] [0x61] [] [] exSeven [] .nil)).text
      = .ok (some [0x5D, 0x7D]) ∧
    -- `a` in `{}`
    findRange {} (pathText [.name [0x61]]) (JVal.obj [] .nil).text = .err .invalidMemberName := by
  decide +kernel

/-! ## C29 and C30 -/

theorem items_obj (w : Bytes) (ms : JMems) : ∀ p ∈ (JVal.obj w ms).items, ∃ n, p.1 = some n := by
  intro p hp
  simp only [JVal.items, List.mem_map] at hp
  obtain ⟨x, -, rfl⟩ := hp
  exact ⟨_, rfl⟩

theorem items_arr (w : Bytes) (es : JElems) : ∀ p ∈ (JVal.arr w es).items, p.1 = none := by
  intro p hp
  simp only [JVal.items, List.mem_map] at hp
  obtain ⟨x, -, rfl⟩ := hp
  rfl

theorem items_lt {d : JVal} (hf : d.Fits) : d.items.length < 18446744073709551615 := by
  have h1 := items_len d
  have h2 := hf.size
  omega

theorem kind_container {t : TCfg} {d : JVal} (hd : d.WF) (hc : d.isContainer = true) (k : Bytes) :
    jvType t.cfg (d.text ++ k) = .ok .array ∨ jvType t.cfg (d.text ++ k) = .ok .cls := by
  rw [jvType_text _ hd]
  cases d <;> simp_all [JVal.isContainer, JVal.kind]

theorem jsMake_ok {t : TCfg} {d : JVal} (hd : d.WF) (hc : d.isContainer = true) (k : Bytes) :
    jsMake t.cfg (d.text ++ k) = .ok ⟨d.text ++ k, []⟩ := by
  have := kind_container (t := t) hd hc k
  unfold jsMake whenChecked
  cases t.cfg.checked with
  | false => rfl
  | true => rcases this with h | h <;> simp [h, ensure]

/-- **C29, partial** (with the next one).  For an object: after any sequence of queries, whatever they returned or threw,
the answer to a query is the one that a new `json_value_state` gives. -/
theorem C29_history_independent_partial (t : TCfg) (hck : t.cfg.checked = true) (w : Bytes) (ms : JMems) (hd : (JVal.obj w ms).WF)
    (hf : (JVal.obj w ms).Fits) (hn : (JVal.obj w ms).NamesOk t.escNames) (k : Bytes) :
    ∃ s, jsMake t.cfg ((JVal.obj w ms).text ++ k) = .ok s ∧
      ∀ (earlier : List Lookup) (q : Lookup), (jsLookup t (jsAfter t s earlier) q).1 = (jsLookup t s q).1 := by
  refine ⟨_, jsMake_ok hd rfl k, fun earlier q => ?_⟩
  obtain ⟨it, h1, h2⟩ := jvBegin_cur hck rfl (dok_of hd hf) hn k
  have hk := kind_container (t := t) hd rfl k
  have h0 : StateOk t it ((JVal.obj w ms).text ++ k) (JVal.obj w ms).items ⟨(JVal.obj w ms).text ++ k, []⟩ := ⟨rfl, .nil⟩
  have h3 := jsAfter_obj hck h1 h2 (items_obj w ms) hk (items_lt hf) earlier h0
  rw [(jsLookup_obj hck h1 h2 (items_obj w ms) hk (items_lt hf) h3 q).1, (jsLookup_obj hck h1 h2 (items_obj w ms) hk (items_lt hf) h0 q).1]

/-- **C29, partial.**  For an array: the answer to a query by index or for the size does not depend on earlier queries of
any kind.  Missing: queries by name, see `C29_false_for_names_in_arrays`. -/
theorem C29_history_independent_arrays_partial (t : TCfg) (hck : t.cfg.checked = true) (w : Bytes) (es : JElems) (hd : (JVal.arr w es).WF)
    (hf : (JVal.arr w es).Fits) (hn : (JVal.arr w es).NamesOk t.escNames) (k : Bytes) :
    ∃ s, jsMake t.cfg ((JVal.arr w es).text ++ k) = .ok s ∧
      ∀ (earlier : List Lookup) (q : Lookup), (q = .size ∨ ∃ i, q = .byIndex i) →
        (jsLookup t (jsAfter t s earlier) q).1 = (jsLookup t s q).1 := by
  refine ⟨_, jsMake_ok hd rfl k, fun earlier q hq => ?_⟩
  have hq' : q.positional = true := by rcases hq with rfl | ⟨i, rfl⟩ <;> rfl
  obtain ⟨it, h1, h2⟩ := jvBegin_cur hck rfl (dok_of hd hf) hn k
  have hk := kind_container (t := t) hd rfl k
  have h0 : StateOk t it ((JVal.arr w es).text ++ k) (JVal.arr w es).items ⟨(JVal.arr w es).text ++ k, []⟩ := ⟨rfl, .nil⟩
  have h3 := jsAfter_arr hck h1 h2 (items_arr w es) hk (items_lt hf) earlier h0
  rw [(jsLookup_pos hck h1 h2 hk (items_lt hf) h3 q hq').1, (jsLookup_pos hck h1 h2 hk (items_lt hf) h0 q hq').1]

/-- The answers themselves, for an object after any history: by name the first member of that name, `index_of` its
position or the number of members, and so on. -/
theorem C29_answers_by_name (t : TCfg) (hck : t.cfg.checked = true) (w : Bytes) (ms : JMems) (hd : (JVal.obj w ms).WF)
    (hf : (JVal.obj w ms).Fits) (hn : (JVal.obj w ms).NamesOk t.escNames) (k : Bytes) (earlier : List Lookup) (key : Bytes) :
    ∃ s, jsMake t.cfg ((JVal.obj w ms).text ++ k) = .ok s ∧
      (∀ e, ms.get? key = some e → ∃ k', AfterValue k' ∧
        (jsLookup t (jsAfter t s earlier) (.byName key)).1 = .ok (.value (e.text ++ k')) ∧
        (jsLookup t (jsAfter t s earlier) (.atName key)).1 = .ok (.value (e.text ++ k'))) ∧
      (key ∉ ms.names →
        (jsLookup t (jsAfter t s earlier) (.byName key)).1 = .err .unknownMember ∧
        (jsLookup t (jsAfter t s earlier) (.atName key)).1 = .ok (.value [])) ∧
      (jsLookup t (jsAfter t s earlier) (.contains key)).1 = .ok (.bool (decide (key ∈ ms.names))) ∧
      (jsLookup t (jsAfter t s earlier) (.indexOf key)).1 = .ok (.num (ms.names.idxOf key)) ∧
      (jsLookup t (jsAfter t s earlier) .size).1 = .ok (.num ms.names.length) := by
  refine ⟨_, jsMake_ok hd rfl k, ?_⟩
  obtain ⟨it, h1, h2⟩ := jvBegin_cur hck rfl (dok_of hd hf) hn k
  have hk := kind_container (t := t) hd rfl k
  have h0 : StateOk t it ((JVal.obj w ms).text ++ k) (JVal.obj w ms).items ⟨(JVal.obj w ms).text ++ k, []⟩ := ⟨rfl, .nil⟩
  have h3 := jsAfter_obj hck h1 h2 (items_obj w ms) hk (items_lt hf) earlier h0
  have ha := fun q => (jsLookup_obj hck h1 h2 (items_obj w ms) hk (items_lt hf) h3 q).1
  have hidx : (JVal.obj w ms).items.findIdx (fun p => p.1 == some key) = ms.names.idxOf key := by
    simp only [JVal.items, JMems.names, List.idxOf, List.findIdx_map]
    congr 1
  have hlen : (JVal.obj w ms).items.length = ms.names.length := by simp [JVal.items, JMems.names]
  have hget : ∀ e, ms.get? key = some e → (JVal.obj w ms).items[ms.names.idxOf key]? = some (some key, e) := by
    intro e he
    simp only [JMems.get?] at he
    simp only [JVal.items, JMems.names]
    revert he
    induction ms.toList with
    | nil => simp
    | cons p ps ih =>
      obtain ⟨a, b⟩ := p
      by_cases hab : key = a
      · subst hab; simp
      · have hb : (key == a) = false := by simpa using hab
        have hb' : (a == key) = false := by simpa using fun h => hab h.symm
        simp only [List.lookup_cons, hb, List.map_cons, List.idxOf_cons, hb', cond_false, List.getElem?_cons_succ]
        exact ih
  refine ⟨fun e he => ?_, fun hk' => ?_, ?_, ?_, ?_⟩
  · have hm : key ∈ ms.names := by
      rcases Classical.em (key ∈ ms.names) with h | h
      · exact h
      · rw [JMems_get?_none.2 h] at he; simp at he
    obtain ⟨k', hv, hka, -⟩ := valAt_ok h2 (hget e he)
    have hlt := List.idxOf_lt_length_of_mem hm
    refine ⟨k', hka, ?_, ?_⟩
    · rw [ha]; simp only [ansOf, hidx, hlen, if_pos hlt, hv]; rfl
    · rw [ha]; simp only [ansOf, hidx, hlen, if_pos hlt, hv]; rfl
  · have hge : ¬ ms.names.idxOf key < ms.names.length := by rw [List.idxOf_lt_length_iff]; exact hk'
    refine ⟨?_, ?_⟩
    · rw [ha]; simp only [ansOf, hidx, hlen, if_neg hge]
    · rw [ha]; simp only [ansOf, hidx, hlen, if_neg hge]
  · rw [ha]; simp only [ansOf, hidx, hlen, List.idxOf_lt_length_iff]
  · rw [ha]; simp only [ansOf, hidx]
  · rw [ha]; simp only [ansOf, hlen]

/-- Non-vacuity: `a` of `{"x":[7] , "c":[{"a":0}],"a": -12}` after looking for `c`, for something that is not there
(which throws), for the size and for the first element. -/
example : ∃ s, jsMake {} (exDoc.text ++ []) = .ok s ∧
    (jsLookup {} (jsAfter {} s [.byName [0x63], .byName [0x71], .size, .byIndex 0]) (.byName [0x61])).1 =
      (jsLookup {} s (.byName [0x61])).1 := by
  obtain ⟨s, h1, h2⟩ := C29_history_independent_partial {} rfl [] exJm exDoc_wf exDoc_fits (exDoc_names _) []
  exact ⟨s, h1, h2 _ _⟩

/-- In an array a lookup by name throws, but after `size( )` the empty name finds the first element. -/
theorem C29_false_for_names_in_arrays :
    (jsLookup {} ⟨exSeven.text, []⟩ (.atName [])).1 = .err .missingMemberName ∧
    (jsLookup {} (jsAfter {} ⟨exSeven.text, []⟩ [.size]) (.atName [])).1 = .ok (.value [0x37, 0x5D]) := by
  decide +kernel

/-- **C30, partial.**  After any history, an index `i ≥ 0` gives the member or element `i`, and `-k` with
`1 ≤ k < size` the one that is `k` from the end; other indices are errors.  Missing: `k = size`, which should be the first
one but is an error, see `C30_false_for_the_first`. -/
theorem C30_index_partial (t : TCfg) (hck : t.cfg.checked = true) (d : JVal) (hc : d.isContainer = true) (hd : d.WF) (hf : d.Fits)
    (hn : d.NamesOk t.escNames) (k : Bytes) (earlier : List Lookup) :
    ∃ s, jsMake t.cfg (d.text ++ k) = .ok s ∧
      (∀ (i : Nat) (p : Option Bytes × JVal), d.items[i]? = some p → ∃ k', AfterValue k' ∧
        (jsLookup t (jsAfter t s earlier) (.byIndex i)).1 = .ok (.value (p.2.text ++ k'))) ∧
      (∀ (i : Nat), d.items.length ≤ i → (jsLookup t (jsAfter t s earlier) (.byIndex i)).1 = .err .unknownMember) ∧
      (∀ (j : Nat) (p : Option Bytes × JVal), 1 ≤ j → j < d.items.length → d.items[d.items.length - j]? = some p → ∃ k', AfterValue k' ∧
        (jsLookup t (jsAfter t s earlier) (.byIndex (-(j : Int)))).1 = .ok (.value (p.2.text ++ k'))) ∧
      (∀ (j : Nat), d.items.length < j → (jsLookup t (jsAfter t s earlier) (.byIndex (-(j : Int)))).1 = .err .unknownMember) := by
  refine ⟨_, jsMake_ok hd hc k, ?_⟩
  obtain ⟨it, h1, h2⟩ := jvBegin_cur hck hc (dok_of hd hf) hn k
  have hk := kind_container (t := t) hd hc k
  have h0 : StateOk t it (d.text ++ k) d.items ⟨d.text ++ k, []⟩ := ⟨rfl, .nil⟩
  have h3 : StateOk t it (d.text ++ k) d.items (jsAfter t ⟨d.text ++ k, []⟩ earlier) := by
    match d with
    | .null | .tru | .fls | .num _ | .str _ => simp [JVal.isContainer] at hc
    | .arr w es => exact jsAfter_arr hck h1 h2 (items_arr w es) hk (items_lt hf) earlier h0
    | .obj w ms => exact jsAfter_obj hck h1 h2 (items_obj w ms) hk (items_lt hf) earlier h0
  have ha := fun i => (jsLookup_pos hck h1 h2 hk (items_lt hf) h3 (.byIndex i) rfl).1
  refine ⟨fun i p hp => ?_, fun i hi => ?_, fun j p hj1 hj2 hp => ?_, fun j hj => ?_⟩
  · have hlt : i < d.items.length := by
      rcases Nat.lt_or_ge i d.items.length with h | h
      · exact h
      · rw [List.getElem?_eq_none h] at hp; simp at hp
    obtain ⟨k', hv, hka, -⟩ := valAt_ok h2 hp
    refine ⟨k', hka, ?_⟩
    rw [ha]
    simp only [ansOf, if_neg (by omega : ¬ (i : Int) < 0), Int.natAbs_natCast, if_pos hlt, hv]
    rfl
  · rw [ha]
    simp only [ansOf, if_neg (by omega : ¬ (i : Int) < 0), Int.natAbs_natCast, if_neg (by omega : ¬ i < d.items.length)]
  · obtain ⟨k', hv, hka, -⟩ := valAt_ok h2 hp
    refine ⟨k', hka, ?_⟩
    rw [ha]
    simp only [ansOf, if_pos (by omega : -(j : Int) < 0), Int.natAbs_neg, Int.natAbs_natCast, if_pos hj2, hv]
    rfl
  · rw [ha]
    simp only [ansOf, if_pos (by omega : -(j : Int) < 0), Int.natAbs_neg, Int.natAbs_natCast, if_neg (by omega : ¬ j < d.items.length)]

/-- Non-vacuity: index -1 of `{"x":[7] , "c":[{"a":0}],"a": -12}` is the last member. -/
example : ∃ s k', jsMake {} (exDoc.text ++ []) = .ok s ∧ (jsLookup {} s (.byIndex (-1))).1 = .ok (.value (exNum.text ++ k')) := by
  obtain ⟨s, h1, -, -, h2, -⟩ := C30_index_partial {} rfl exDoc rfl exDoc_wf exDoc_fits (exDoc_names _) [] []
  obtain ⟨k', -, h3⟩ := h2 1 (some [0x61], exNum) (by decide) (by decide) rfl
  exact ⟨s, k', h1, h3⟩

/-- For every container with members or elements, index `-size` is an error; it should be the first one. -/
theorem C30_false_for_the_first (t : TCfg) (hck : t.cfg.checked = true) (d : JVal) (hc : d.isContainer = true) (hd : d.WF) (hf : d.Fits)
    (hn : d.NamesOk t.escNames) (hne : d.items ≠ []) (k : Bytes) :
    ∃ s, jsMake t.cfg (d.text ++ k) = .ok s ∧
      (jsLookup t s (.byIndex (-(d.items.length : Int)))).1 = .err .unknownMember := by
  refine ⟨_, jsMake_ok hd hc k, ?_⟩
  obtain ⟨it, h1, h2⟩ := jvBegin_cur hck hc (dok_of hd hf) hn k
  have hk := kind_container (t := t) hd hc k
  have h0 : StateOk t it (d.text ++ k) d.items ⟨d.text ++ k, []⟩ := ⟨rfl, .nil⟩
  have hpos := List.length_pos_iff.2 hne
  rw [(jsLookup_pos hck h1 h2 hk (items_lt hf) h0 (.byIndex _) rfl).1]
  simp only [ansOf, if_pos (by omega : -(d.items.length : Int) < 0), Int.natAbs_neg, Int.natAbs_natCast,
    if_neg (by omega : ¬ d.items.length < d.items.length)]

end Verif
