import Verif.Model.IterPath
import Verif.Props.Iter
import Verif.Props.Value
import Verif.Spec.Ascii

/-!
# Property C111: iterating over an array inside of a document

`itMakePath` is the construction of a `json_array_iterator`, `json_array_iterator_once` or of a range of these from a document and a path.
-/

namespace Verif

open Spec

theorem followArr_ok {tc : Bool} {ss : List Step} {d e : JVal} (hd : DOk false d) (hn : d.NamesOk tc) (h : d.followArr ss = some e) : DOk false e := by
  induction ss generalizing d with
  | nil =>
    simp only [JVal.followArr, Option.some.injEq] at h
    exact h ▸ hd
  | cons s ss ih =>
    simp only [JVal.followArr] at h
    cases hs : d.stepArr s with
    | none => simp [hs] at h
    | some e' =>
      rw [hs] at h
      obtain ⟨hd', hn'⟩ := stepArr_ok hd hn hs
      exact ih hd' hn' h

/-- The iterator that is made for the array at the path is the one that is made for the text of the array. -/
theorem itMakePath_found (t : TCfg) (hck : t.cfg.checked = true) (d : JVal) (hd : d.WF) (hf : d.Fits) (hn : d.NamesOk t.escNames)
    (ss : List Step) (hss : ∀ s ∈ ss, s.Ok ∧ s.Short) (hp : DottedPath ss) (pre k : Bytes) (hpre : IsWs pre) (hk : AfterValue k)
    (w : Bytes) (es : JElems) (h : d.followArr ss = some (.arr w es)) :
    ∃ k', itMakePath t (pathText ss) (pre ++ (d.text ++ k)) = itMake t.cfg .array ([] ++ ((JVal.arr w es).text ++ k')) := by
  obtain ⟨k', h1, -⟩ := C28_find_range_partial t hck d _ hd hf hn ss hss hp pre k hpre hk h
  refine ⟨k', ?_⟩
  obtain ⟨cs, hcs⟩ : ∃ cs, (JVal.arr w es).text ++ k' = chLBrack :: cs := by
    cases es <;> simp [JVal.text]
  unfold itMakePath
  rw [h1, List.nil_append, hcs]
  rfl

/-- **C111, partial.**  If the path leads to an array, iterating with a `json_array_iterator` made from the document and the path yields
the values of the elements of that array, as C35 says of an array that is the whole document.  Missing: paths with an index that does not
follow a name, see `C111_index_false`. -/
theorem C111_array_partial (t : TCfg) (hck : t.cfg.checked = true) (Δ : Env) (henv : EnvOk Δ) (ty : Ty)
    (d : JVal) (hd : d.WF) (hf : d.Fits) (hn : d.NamesOk t.escNames)
    (ss : List Step) (hss : ∀ s ∈ ss, s.Ok ∧ s.Short) (hp : DottedPath ss) (pre k : Bytes) (hpre : IsWs pre) (hk : AfterValue k)
    (w : Bytes) (es : JElems) (h : d.followArr ss = some (.arr w es)) (vs : List Val) (hr : ReadsAll t Δ ty es.toList vs)
    (cs : List Nat) (hl : cs.length ≤ vs.length)
    (hs : ∀ (i : Nat) (e : JVal), es.toList[i]? = some e → cs[i]? = some 0 → Passable Δ ty e) :
    ∃ f0, ∀ f, f0 ≤ f → ∃ it it', itMakePath t (pathText ss) (pre ++ (d.text ++ k)) = .ok it ∧
      itWalk t.cfg .array (typedOps t Δ f ty) cs it = .ok (List.zipWith List.replicate cs vs, it') ∧
      (itGood .array it' = true ↔ cs.length < vs.length) := by
  obtain ⟨k', h1⟩ := itMakePath_found t hck d hd hf hn ss hss hp pre k hpre hk w es h
  have he := followArr_ok (dok_of hd hf) hn h
  rw [h1]
  exact C35_array_partial t hck Δ henv ty w es vs hr he.wf ⟨he.depth, he.size⟩ [] k' ws_nil cs hl hs

/-- The same for elements of type `json_value`: the texts of the elements. -/
theorem C111_json_values_partial (t : TCfg) (hck : t.cfg.checked = true)
    (d : JVal) (hd : d.WF) (hf : d.Fits) (hn : d.NamesOk t.escNames)
    (ss : List Step) (hss : ∀ s ∈ ss, s.Ok ∧ s.Short) (hp : DottedPath ss) (pre k : Bytes) (hpre : IsWs pre) (hk : AfterValue k)
    (w : Bytes) (es : JElems) (h : d.followArr ss = some (.arr w es)) (cs : List Nat) (hl : cs.length ≤ es.toList.length) :
    ∃ it it', itMakePath t (pathText ss) (pre ++ (d.text ++ k)) = .ok it ∧
      itWalk t.cfg .array (rawOps t.cfg) cs it = .ok (List.zipWith List.replicate cs (es.toList.map (rangeText true)), it') ∧
      (itGood .array it' = true ↔ cs.length < es.toList.length) := by
  obtain ⟨k', h1⟩ := itMakePath_found t hck d hd hf hn ss hss hp pre k hpre hk w es h
  have he := followArr_ok (dok_of hd hf) hn h
  rw [h1]
  exact C35_array_of_json_values t.cfg hck w es he.wf ⟨he.depth, he.size⟩ [] k' ws_nil cs hl

/-- The same for `json_array_iterator_once`, up to the last step (`C35_once_false`). -/
theorem C111_once_partial (t : TCfg) (hck : t.cfg.checked = true) (Δ : Env) (henv : EnvOk Δ) (ty : Ty)
    (d : JVal) (hd : d.WF) (hf : d.Fits) (hn : d.NamesOk t.escNames)
    (ss : List Step) (hss : ∀ s ∈ ss, s.Ok ∧ s.Short) (hp : DottedPath ss) (pre k : Bytes) (hpre : IsWs pre) (hk : AfterValue k)
    (w : Bytes) (es : JElems) (h : d.followArr ss = some (.arr w es)) (vs : List Val) (hr : ReadsAll t Δ ty es.toList vs)
    (n : Nat) (hnl : n < vs.length) :
    ∃ f0, ∀ f, f0 ≤ f → ∃ it it', itMakePath t (pathText ss) (pre ++ (d.text ++ k)) = .ok it ∧
      onceWalk t.cfg (typedOps t Δ f ty) n it = .ok (vs.take n, it') ∧ itGood .array it' = true := by
  obtain ⟨k', h1⟩ := itMakePath_found t hck d hd hf hn ss hss hp pre k hpre hk w es h
  have he := followArr_ok (dok_of hd hf) hn h
  rw [h1]
  exact C35_once_partial t hck Δ henv ty w es vs hr he.wf ⟨he.depth, he.size⟩ [] k' ws_nil n hnl

/-- **C111.**  If the path leads to anything but an array, no iterator is made: it is an error. -/
theorem C111_no_array (t : TCfg) (hck : t.cfg.checked = true) (d e : JVal) (hd : d.WF) (hf : d.Fits) (hn : d.NamesOk t.escNames)
    (ss : List Step) (hss : ∀ s ∈ ss, s.Ok ∧ s.Short) (hp : DottedPath ss) (pre k : Bytes) (hpre : IsWs pre) (hk : AfterValue k)
    (h : d.followArr ss = some e) (hk' : e.kind ≠ .array) :
    itMakePath t (pathText ss) (pre ++ (d.text ++ k)) = .err .invalidArrayStart := by
  obtain ⟨k', h1, -⟩ := C28_find_range_partial t hck d _ hd hf hn ss hss hp pre k hpre hk h
  have he := followArr_ok (dok_of hd hf) hn h
  unfold itMakePath
  rw [h1]
  have hne := text_ne_empty he.wf k'
  have hty := jvType_text t.cfg he.wf k'
  cases htx : e.text ++ k' with
  | nil => simp [htx] at hne
  | cons c cs =>
    rw [htx] at hty
    have hc : (c == chLBrack) = false := by
      rw [beq_eq_false_iff_ne]
      rintro rfl
      exact hk' (by simpa [jvType] using hty.symm)
    change (do ensure (c == chLBrack) .invalidArrayStart; itMake t.cfg .array (c :: cs)) = _
    rw [hc]
    rfl

/-- **C111.**  A component of the path that is missing is an error (as far as `C28_find_range_missing_partial` goes). -/
theorem C111_missing_partial (t : TCfg) (hck : t.cfg.checked = true) (d e : JVal) (hd : d.WF) (hf : d.Fits)
    (hn : d.NamesOk t.escNames) (pre : List Step) (s : Step) (post : List Step) (hss : ∀ s' ∈ pre ++ s :: post, s'.Ok ∧ s'.Short)
    (hp : DottedPath (pre ++ s :: post)) (k : Bytes) (h : d.followArr pre = some e)
    (hm : (∃ n w ms, s = .name n ∧ e = .obj w ms ∧ ms ≠ .nil ∧ n ∉ ms.names) ∨
      ∃ ds w es, s = .index ds ∧ e = .arr w es ∧ es ≠ .nil ∧ es.toList.length < decVal ds) :
    itMakePath t (pathText (pre ++ s :: post)) (d.text ++ k) = .err .jsonPathNotFound := by
  unfold itMakePath
  rw [C28_find_range_missing_partial t hck d e hd hf hn pre s post hss hp k h hm]
  rfl

/-- **C111 is false of the code** for a document without a value: whatever the path, and with checks, the byte behind the end of the
document is read. -/
theorem C111_false_for_empty (t : TCfg) (path w : Bytes) (hw : ∀ c ∈ w, 1 ≤ c.toNat ∧ c.toNat ≤ 32) : itMakePath t path w = .ub := by
  have h : trimChecked w = [] := by
    induction w with
    | nil => rfl
    | cons c cs ih =>
      rw [trimChecked, if_pos ((isSpace_iff c).2 (hw c (by simp)))]
      exact ih fun c hc => hw c (by simp [hc])
  unfold itMakePath findRange
  rw [h, if_pos (Or.inl rfl)]
  rfl

/-- **C111 is false of the code** for paths that begin with an index, or in which an index follows an index: the index is ignored.
`[0]` in `[[1],2]`, `a[0][0]` in `{"a":[[[1]]]}`: the iterators stand on `[1]`, behind `[`, in front of the first element of the outer array. -/
theorem C111_index_false :
    itMakePath {} (asc! "[0]") (asc! "[[1],2]") = .ok { pos := asc! "[1],2]" } ∧
    itMakePath {} (asc! "a[0][0]") (asc! "{\"a\":[[[1]]]}") = .ok { pos := asc! "[1]]]}" } ∧
    itMakePath {} (asc! "a[0]") (asc! "{\"a\":[[[1]]]}") = .ok { pos := asc! "[1]]]}" } := by decide +kernel

/-! ### Non-vacuity -/

/-- `c` -/
def exPathC : List Step := [.name [0x63]]

theorem exPathC_ok : ∀ s ∈ exPathC, s.Ok ∧ s.Short := by
  intro s hs
  simp only [exPathC, List.mem_cons, List.not_mem_nil, or_false] at hs
  subst hs
  exact ⟨⟨by simp, by simp⟩, trivial⟩

/-- The elements of `c` in `{"x":[7] , "c":[{"a":0}],"a": -12}`, the first one dereferenced three times. -/
example : ∃ f0, ∀ f, f0 ≤ f → ∃ it it', itMakePath {} (pathText exPathC) ([0x20] ++ (exDoc.text ++ [])) = .ok it ∧
    itWalk {} .array (typedOps {} exEnv f (.ref 0)) [3] it = .ok ([[.cls [.int 0, .none, .none], .cls [.int 0, .none, .none], .cls [.int 0, .none, .none]]], it') ∧
    (itGood .array it' = true ↔ 1 < 1) :=
  C111_array_partial {} rfl exEnv exEnv_ok (.ref 0) exDoc exDoc_wf exDoc_fits (exDoc_names _) exPathC exPathC_ok (by simp [exPathC, DottedPath])
    [0x20] [] ws_sp afterValue_nil _ _ rfl [.cls [.int 0, .none, .none]] (by
      refine ⟨rfl, fun i d v hd hv => ?_⟩
      cases i with
      | succ i => simp at hv
      | zero =>
        simp only [JElems.toList, List.getElem?_cons_zero, Option.some.injEq] at hv hd
        subst hv hd
        refine .obj (ms := exMs) (ex := false) rfl ?_ (by decide) (by simp) ?_
        · intro n hn
          simp only [JMems.names, JMems.toList, List.map_cons, List.map_nil, List.mem_singleton] at hn
          subst hn
          exact exUsable _ (Or.inl rfl)
        · exact .found (d := .num [0x30]) rfl (.int (by decide) (by decide) exZero_numeral)
            (.absent rfl rfl (.absent rfl rfl .nil))) [3] (by simp) (by
      intro i e he hc
      cases i <;> simp at hc)

example : itMakePath {} (pathText [.name [0x63], .index [0x30]]) ([] ++ (exDoc.text ++ [])) = .err .invalidArrayStart :=
  C111_no_array {} rfl exDoc (.obj [] (.cons [] [0x61] [] [] (.num [0x30]) [] .nil)) exDoc_wf exDoc_fits (exDoc_names _) _
    (fun s hs => exPath_short s (by simp only [exPath]; simp at hs ⊢; rcases hs with h | h <;> simp [h])) (by simp [DottedPath])
    [] [] ws_nil afterValue_nil rfl (by simp [JVal.kind])

example : itMakePath {} (asc! "c[0].b") (exDoc.text ++ []) = .err .jsonPathNotFound := by decide +kernel

example : itMakePath {} (asc! "a.b") (asc! "\n ") = .ub := C111_false_for_empty {} _ _ (by decide)

end Verif
