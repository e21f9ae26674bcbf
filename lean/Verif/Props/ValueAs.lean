import Verif.Model.ValueAs
import Verif.Props.Value
import Verif.Props.Text

/-!
# C113 and C114: untyped values are read as types, now or later, and written

The options are those of checked parsing.
-/

namespace Verif

open Spec

/-! ## C113 -/

theorem exS0_reads : Reads exEnv (Usable {}) false (.ref 0) (.obj [] (.cons [] [0x61] [] [] (.num [0x30]) [] .nil)) (.cls [.int 0, .none, .none]) := by
  refine .obj (ms := exMs) (ex := false) rfl ?_ (by decide) (by simp) ?_
  · intro n hn
    simp only [JMems.names, JMems.toList, List.map_cons, List.map_nil, List.mem_singleton] at hn
    subst hn
    exact exUsable _ (Or.inl rfl)
  · exact .found (d := .num [0x30]) rfl (.int (by decide) (by decide) exZero_numeral) (.absent rfl rfl (.absent rfl rfl .nil))

/-- `{"n":7,"m":7}` -/
def exPairs : JVal := .obj [] (.cons [] asc! "n" [] [] (.num asc! "7") [] (.cons [] asc! "m" [] [] (.num asc! "7") [] .nil))

theorem exPairs_wf : exPairs.WF :=
  ⟨Or.inl ws_nil, ws_nil, name1_wf (by decide) (by decide) (by decide), ws_nil, ws_nil, num7_wf, ws_nil,
    ws_nil, name1_wf (by decide) (by decide) (by decide), ws_nil, ws_nil, num7_wf, ws_nil, trivial⟩

theorem exPairs_reads : Reads exEnv (Usable {}) false (.map (.int exI32 false)) exPairs (.map [(asc! "n", .int 7), (asc! "m", .int 7)]) :=
  have un : ∀ c : UInt8, 0x20 ≤ c → c ≠ 0x22 → c ≠ 0x5C → Unesc [c] [c] := fun c h1 h2 h3 => .plain h1 h2 h3 .nil
  .map (fun _ => ws_nil) (.cons (un _ (by decide) (by decide) (by decide)) (.int (by decide) (by decide) num7_numeral)
    (.cons (un _ (by decide) (by decide) (by decide)) (.int (by decide) (by decide) num7_numeral) .nil))


theorem jvAs_at {t : TCfg} (hck : t.cfg.checked = true) {Δ : Env} (henv : EnvOk Δ) {ty : Ty} {e : JVal} {v : Val} (he : DOk false e)
    (hr : Reads Δ (Usable t) t.exactAll ty e v) :
    ∃ f0, ∀ f, f0 ≤ f → ∀ k, AfterValue k → (k ≠ [] ∨ EndsWell e v) → ∃ r, parseU t Δ f ty (e.text ++ k) = .ok (v, r) := by
  obtain ⟨f0, hf0⟩ := reads_sem hck henv usable_nameOk rfl hr he
  refine ⟨f0, fun f hf k hk hw => ?_⟩
  obtain ⟨r, hr', -⟩ := (hf0 f hf).1 k (fun _ => ⟨hk, fun hn => hw.resolve_left (fun h => h hn)⟩) (by simp [hck])
  exact ⟨r, hr'⟩

/-- **C113, partial** (with the theorems that follow).  A value found in a document by a path, whatever the path, is converted by `as<T>( )` and
by `from_json<T>( value )` to what it means as a `T`, and `from_json<T>( value, path )` gives the same.  (A real or a boolean or integer that may be a
string, as the whole document: C87 and C92.) -/
theorem C113_as_partial (t : TCfg) (hck : t.cfg.checked = true) (Δ : Env) (henv : EnvOk Δ) (ty : Ty)
    (d e : JVal) (v : Val) (hd : d.WF) (hf : d.Fits) (hn : d.NamesOk t.escNames) (ss : List Step) (hss : ∀ s ∈ ss, s.Ok)
    (w k : Bytes) (hw : IsWs w) (hk : AfterValue k) (h : d.follow ss = some e) (hr : Reads Δ (Usable t) t.exactAll ty e v)
    (hew : ss ≠ [] ∨ EndsWell e v) :
    ∃ doc jv, jvMake t.cfg (w ++ (d.text ++ k)) = .ok doc ∧ jvFind t doc (pathText ss) = .ok jv ∧
      ∃ f0, ∀ f, f0 ≤ f → jvAs t Δ f ty jv = .ok v ∧ fromJv t Δ f ty jv = .ok v ∧ ∀ own, fromJvPath own t Δ f ty (pathText ss) doc = .ok v := by
  obtain ⟨k', h1, h2, he, hne⟩ := jvFind_follow hck ss hss (dok_of hd hf) hn k hk h
  have htrim : ∀ w, IsWs w → jvMake t.cfg (w ++ (d.text ++ k)) = .ok (d.text ++ k) := by
    intro w hw
    rw [jvMake, trim_ck hck, trimChecked_ws _ _ hw, trimChecked_text d hd]
  refine ⟨d.text ++ k, e.text ++ k', htrim w hw, h1, ?_⟩
  obtain ⟨f0, hf0⟩ := jvAs_at hck henv he hr
  refine ⟨f0, fun f hf => ?_⟩
  obtain ⟨r, hr'⟩ := hf0 f hf k' h2 (by
    rcases hew with h3 | h3
    · exact Or.inl (hne.resolve_left h3)
    · exact Or.inr h3)
  have hkind : ¬ e.kind = .none := by cases e <;> simp [JVal.kind]
  refine ⟨by simp [jvAs, hr'], by simp [fromJv, hr'], fun own => ?_⟩
  have h0 := htrim [] ws_nil
  rw [List.nil_append] at h0
  unfold fromJvPath
  simp only [h0, Res.ok_bind, h1, jvType_text _ he.wf, hkind, false_and, if_false, hr']
  rw [show (e.kind != Kind.none) = true by simpa using hkind]
  rfl

/-- Non-vacuity: `c` and `c[0]` of `{"x":[7] , "c":[{"a":0}],"a": -12}`, the first as a `std::vector<S>`, the second as an `S`. -/
example : ∃ doc jv, jvMake {} ([0x20] ++ (exDoc.text ++ [])) = .ok doc ∧ jvFind {} doc (pathText [.name [0x63]]) = .ok jv ∧
    ∃ f0, ∀ f, f0 ≤ f → jvAs {} exEnv f (.arr (.ref 0)) jv = .ok (.arr [.cls [.int 0, .none, .none]]) := by
  obtain ⟨doc, jv, h1, h2, f0, h3⟩ := C113_as_partial {} rfl exEnv exEnv_ok (.arr (.ref 0)) exDoc exArr (.arr [.cls [.int 0, .none, .none]]) exDoc_wf
    exDoc_fits (exDoc_names _) [.name [0x63]] (fun s hs => exPath_ok s (by simp_all [exPath])) [0x20] [] ws_sp afterValue_nil rfl
    (.arr (fun _ => ws_nil) (.cons exS0_reads .nil)) (Or.inl (by simp))
  exact ⟨doc, jv, h1, h2, f0, fun f hf => (h3 f hf).1⟩

/-- **C113 is false of the code** for options: `from_json( value, path, flags )` does not use those of the `json_value`, whatever the path leads to.
With `AllowEscapedNames` `x` is found in `{"\"":1,"x":2}` by a lookup, but not by `from_json`. -/
theorem C113_path_forgets_options :
    (∀ (own own' flags : TCfg) (Δ : Env) (fuel : Nat) (ty : Ty) (path : Bytes) (jv : JV),
      fromJvPath own flags Δ fuel ty path jv = fromJvPath own' flags Δ fuel ty path jv) ∧
    (do let jv ← jvMake {} asc! "{\"\\\"\":1,\"x\":2}"
        let jv ← jvFind { escNames := true } jv asc! "x"
        jvAs { escNames := true } exEnv 5 (.int exI32 false) jv) = .ok (.int 2) ∧
    fromJvPath { escNames := true } {} exEnv 5 (.int exI32 false) asc! "x" asc! "{\"\\\"\":1,\"x\":2}" = .err .invalidString :=
  ⟨fun _ _ _ _ _ _ _ _ => rfl, by decide +kernel⟩

theorem readsElems_all {Δ : Env} {nm : List Bytes → Bytes → Prop} {ea : Bool} {ty : Ty} :
    ∀ {es : JElems} {vs : List Val}, ReadsElems Δ nm ea ty es vs → List.Forall₂ (Reads Δ nm ea ty) es.toList vs
  | _, _, .nil => .nil
  | _, _, .cons h ht => .cons h (readsElems_all ht)

theorem readsPairs_all {Δ : Env} {nm : List Bytes → Bytes → Prop} {ea : Bool} {ty : Ty} :
    ∀ {ms : JMems} {kvs : List (Bytes × Val)}, ReadsPairs Δ nm ea ty ms kvs →
      List.Forall₂ (Reads Δ nm ea ty) (ms.toList.map Prod.snd) (kvs.map Prod.snd)
  | _, _, .nil => .nil
  | _, _, .cons _ h ht => .cons h (readsPairs_all ht)

theorem items_as {t : TCfg} (hck : t.cfg.checked = true) {Δ : Env} (henv : EnvOk Δ) {ty : Ty} {items : List Item} {vs : List Val}
    (hall : List.Forall₂ (Reads Δ (Usable t) t.exactAll ty) (items.map Prod.snd) vs) (hok : ∀ p ∈ items, DOk false p.2)
    {ps : List (Option Bytes × JV)} (hl : ps.length = items.length)
    (h : ∀ (i : Nat) (p : Item), items[i]? = some p → ∃ q, ps[i]? = some q ∧ ItemAt p q) :
    ∃ f0, ∀ f, f0 ≤ f → ps.map (fun p => jvAs t Δ f ty p.2) = vs.map Res.ok := by
  induction items generalizing vs ps with
  | nil =>
    cases hall
    obtain rfl := List.length_eq_zero_iff.1 hl
    exact ⟨0, fun f _ => rfl⟩
  | cons p items ih =>
    cases hall with
    | @cons _ v _ vs he htl =>
      cases ps with
      | nil => simp at hl
      | cons q ps =>
        obtain ⟨f1, hf1⟩ := ih htl (fun x hx => hok x (List.mem_cons_of_mem _ hx)) (by simpa using hl)
          (fun i x hx => by simpa using h (i + 1) x (by simpa using hx))
        obtain ⟨f2, hf2⟩ := jvAs_at hck henv (hok p (List.mem_cons_self ..)) he
        obtain ⟨q', hq, -, k', hv, hka, hkn⟩ := h 0 p rfl
        simp only [List.getElem?_cons_zero, Option.some.injEq] at hq
        subst hq
        refine ⟨max f1 f2, fun f hf => ?_⟩
        obtain ⟨r, hr⟩ := hf2 f (by omega) k' hka (Or.inl hkn)
        have hh : jvAs t Δ f ty q.2 = .ok v := by rw [jvAs, hv, hr]; rfl
        simp only [List.map_cons, hf1 f (by omega), hh]

/-- Elements of an array that are converted one by one in a loop are those of the `std::vector` that `from_json` reads. -/
theorem C113_array_partial (t : TCfg) (hck : t.cfg.checked = true) (Δ : Env) (henv : EnvOk Δ) (ty : Ty) (d : JVal) (vs : List Val)
    (hd : d.WF) (hf : d.Fits) (hn : d.NamesOk t.escNames) (k : Bytes) (hr : Reads Δ (Usable t) t.exactAll (.arr ty) d (.arr vs)) :
    ∃ it ps, jvBegin t.cfg (d.text ++ k) = .ok it ∧ iterAll t it = .ok ps ∧
      ∃ f0, ∀ f, f0 ≤ f → ps.map (fun p => jvAs t Δ f ty p.2) = vs.map Res.ok := by
  cases hr with
  | @arr _ w es vs hw hes =>
    obtain ⟨it, h1, h2⟩ := jvBegin_cur (d := .arr w es) hck rfl (dok_of hd hf) hn k
    obtain ⟨ps, h3, h4, h5⟩ := iterAll_cur _ it h2
    refine ⟨it, ps, h1, h3, items_as hck henv ?_ (fun p hp => (items_ok (dok_of hd hf) hn p hp).1) h4 h5⟩
    simpa [JVal.items] using readsElems_all hes

/-- Non-vacuity: `[{"a":0}]`. -/
example : ∃ it ps, jvBegin {} (exArr.text ++ []) = .ok it ∧ iterAll {} it = .ok ps ∧
    ∃ f0, ∀ f, f0 ≤ f → ps.map (fun p => jvAs {} exEnv f (.ref 0) p.2) = [.ok (.cls [.int 0, .none, .none])] :=
  C113_array_partial {} rfl exEnv exEnv_ok (.ref 0) exArr [.cls [.int 0, .none, .none]] exArr_wf ⟨by decide, by decide⟩
    (by simp [exArr, JVal.NamesOk, JVal.allNames, JMems.allNames, JElems.allNames, PlainName]) [] (.arr (fun _ => ws_nil) (.cons exS0_reads .nil))

/-- Members of an object that are converted one by one are those of the `std::map` that `from_json` reads. -/
theorem C113_object_partial (t : TCfg) (hck : t.cfg.checked = true) (Δ : Env) (henv : EnvOk Δ) (ty : Ty) (d : JVal) (kvs : List (Bytes × Val))
    (hd : d.WF) (hf : d.Fits) (hn : d.NamesOk t.escNames) (k : Bytes) (hr : Reads Δ (Usable t) t.exactAll (.map ty) d (.map kvs)) :
    ∃ it ps, jvBegin t.cfg (d.text ++ k) = .ok it ∧ iterAll t it = .ok ps ∧
      ∃ f0, ∀ f, f0 ≤ f → ps.map (fun p => jvAs t Δ f ty p.2) = kvs.map fun p => Res.ok p.2 := by
  cases hr with
  | @map _ w ms kvs hw hes =>
    obtain ⟨it, h1, h2⟩ := jvBegin_cur (d := .obj w ms) hck rfl (dok_of hd hf) hn k
    obtain ⟨ps, h3, h4, h5⟩ := iterAll_cur _ it h2
    obtain ⟨f0, hf0⟩ := items_as hck henv (vs := kvs.map Prod.snd) (items := (JVal.obj w ms).items)
      (by simpa [JVal.items, Function.comp_def] using readsPairs_all hes) (fun p hp => (items_ok (dok_of hd hf) hn p hp).1) h4 h5
    exact ⟨it, ps, h1, h3, f0, fun f hf => by simpa [Function.comp_def] using hf0 f hf⟩

/-- Non-vacuity: `{"n":7,"m":7}` as a map of integers. -/
example : ∃ it ps, jvBegin {} (exPairs.text ++ []) = .ok it ∧ iterAll {} it = .ok ps ∧
    ∃ f0, ∀ f, f0 ≤ f → ps.map (fun p => jvAs {} exEnv f (.int exI32 false) p.2) = [.ok (.int 7), .ok (.int 7)] :=
  C113_object_partial {} rfl exEnv exEnv_ok (.int exI32 false) exPairs [(asc! "n", .int 7), (asc! "m", .int 7)] exPairs_wf ⟨by decide, by decide⟩
    (by simp [exPairs, JVal.NamesOk, JVal.allNames, JMems.allNames, PlainName]) [] exPairs_reads

/-- Types whose parser asks for a value: no nullable types, raw strings, reals, variants told by the kind of value and custom types that take any
value. -/
def Spec.Asks (Δ : Env) : Ty → Prop
  | .opt _ | .txt (.rawStr _) | .txt (.custom .any) | .txt (.real ..) => False
  | .ref i => ∀ alts, Δ i ≠ .var alts
  | _ => True

/-- What is not there is not converted: the value of no type, which a lookup that fails gives, throws, or is empty as a nullable type. -/
theorem C113_missing_partial (t : TCfg) (hck : t.cfg.checked = true) (Δ : Env) (f : Nat) (ty : Ty) :
    (∀ ty', ty = .opt ty' → jvAs t Δ (f + 1) ty [] = .ok .none) ∧ (Asks Δ ty → ∃ e, jvAs t Δ (f + 1) ty [] = .err e) := by
  refine ⟨?_, ?_⟩
  · rintro ty' rfl
    unfold jvAs
    rw [parseU]
    simp [eatNull]
  · intro h
    unfold jvAs
    rw [parseU.eq_def]
    cases ty with
    | opt => exact h.elim
    | bool => exact ⟨_, by simp [parseBool, eatBool, hck]; rfl⟩
    | int ity rc =>
      refine ⟨.unexpectedEndOfData, ?_⟩
      cases hs : ity.signed <;> simp [parseInt, parseSigned, parseUnsigned, hck, hs]
    | str ah => exact ⟨_, by simp [parseStr]; rfl⟩
    | arr ty => exact ⟨_, by simp [parseArr, trim_ck hck, hck, headIs, assertWeak_checked]; rfl⟩
    | map ty => exact ⟨_, by simp [parseMap, hck, headIs, assertWeak_checked]; rfl⟩
    | txt x =>
      cases x with
      | rawStr => exact h.elim
      | date => exact ⟨_, by simp [parseTxt, parseDate, hck]; rfl⟩
      | custom c =>
        cases c with
        | str => exact ⟨_, by simp [parseTxt, parseCustom, customText, skipString, customStart, headIs, assertWeak_checked, hck]; rfl⟩
        | lit => exact ⟨_, by simp [parseTxt, parseCustom, customText, skipLiteral, assertWeak_checked, hck]; rfl⟩
        | any => exact h.elim
      | raw => exact ⟨_, by simp [parseTxt, skipValue, hck]; rfl⟩
      | real => exact h.elim
      | quoted al l =>
        have hq : ∃ e, skipQuote t.cfg al [] = .err e := by
          cases al <;> exact ⟨_, by simp [skipQuote, headIs, assertWeak_checked, hck]; rfl⟩
        obtain ⟨e, he⟩ := hq
        refine ⟨e, ?_⟩
        cases l with
        | bool => simp [parseTxt, parseLit, parseBoolQ, he]
        | int ity rc => cases hs : ity.signed <;> simp [parseTxt, parseLit, parseSignedQ, parseUnsignedQ, he, hs]
    | ref i =>
      dsimp only
      cases hi : Δ i with
      | var alts => exact absurd hi (h alts)
      | obj ms ex => exact ⟨_, by simp [hck, assertWeak_checked]; rfl⟩
      | tup ms ex => exact ⟨_, by simp [parseTup, trim_ck hck, hck, headIs, assertWeak_checked]; rfl⟩
      | ord ms ex => exact ⟨_, by simp [hck, assertWeak_checked]; rfl⟩
      | ivar ms ex => exact ⟨_, by simp [hck, assertWeak_checked]; rfl⟩

/-- Missing: raw strings (`std::string_view`) are empty instead; for variants and custom types of any kind a byte that is not there is read. -/
theorem C113_false_for_missing (t : TCfg) (hq : t.cfg.endQuote = false) (Δ : Env) (f : Nat) :
    (∀ ah, jvAs t Δ (f + 1) (.txt (.rawStr ah)) [] = .ok (.txt [])) ∧ jvAs t Δ (f + 1) (.txt (.custom .any)) [] = .ub ∧
    ∀ i alts, Δ i = .var alts → jvAs t Δ (f + 1) (.ref i) [] = .ub := by
  refine ⟨fun ah => ?_, ?_, fun i alts hi => ?_⟩
  · unfold jvAs
    rw [parseU.eq_def]
    simp [parseTxt, skipString]
  · unfold jvAs
    rw [parseU.eq_def]
    simp [parseTxt, parseCustom, customText, derefEnd, hq]
  · unfold jvAs
    rw [parseU.eq_def]
    dsimp only
    rw [hi]
    simp [derefEnd, hq]

/-- Non-vacuity: a class, a number and a date are asked for. -/
example : Asks exEnv (.ref 0) ∧ Asks exEnv (.int exI32 false) ∧ Asks exEnv (.txt .date) ∧
    jvFind {} exDoc.text asc! "none" = .ok [] ∧ jvAs {} exEnv 1 (.ref 0) [] = .err .unexpectedEndOfData :=
  ⟨fun alts (h : exEnv 0 = .var alts) => by simp [exEnv] at h, trivial, trivial, by decide +kernel, by decide +kernel⟩

/-- A member that is kept as a `json_value` and converted later gives what it means as the type it is converted to: the members of the class are
read, and the value made from the text of a `json_raw` member is converted.  Numbers, booleans, arrays and objects. -/
theorem C113_later_partial (t : TCfg) (hck : t.cfg.checked = true) (Δ : Env) (henv : EnvOk Δ) {i : Nat}
    {ms : List Member} {ex : Bool} (hi : Δ i = .obj ms ex) (w : Bytes) (jm : JMems)
    (hn : ∀ n ∈ jm.names, Usable t (ms.map Member.name) n) (honce : ∀ m ∈ ms, jm.names.count m.name ≤ 1)
    (hex : (ex || t.exactAll) = true → ∀ n ∈ jm.names, ∃ m ∈ ms, m.name = n)
    (hread : ∀ m ∈ ms, ∀ d, jm.get? m.name = some d → ∃ v, Reads Δ (Usable t) t.exactAll m.ty d v)
    (hopt : ∀ m ∈ ms, jm.get? m.name = none → m.ty.isOpt = true) (hw : (JVal.obj w jm).WF) (hf : (JVal.obj w jm).Fits) :
    ∃ vs f0, (∀ f, f0 ≤ f → fromJson t Δ f (.ref i) (JVal.obj w jm).text = .ok (.cls vs)) ∧
      ∀ (p : Nat) (n : Bytes) (d : JVal), ms[p]? = some ⟨n, .txt .raw⟩ → jm.get? n = some d →
        ∀ (ty : Ty) (v : Val), Reads Δ (Usable t) t.exactAll ty d v → EndsWell d v →
          ∃ x jv f1, vs[p]? = some (Val.txt x) ∧ jvOfRaw t.cfg x = .ok jv ∧ ∀ f, f1 ≤ f → jvAs t Δ f ty jv = .ok v := by
  obtain ⟨vs, f0, h1, -, h2⟩ := C82_raw_json_partial t hck Δ henv hi w jm hn honce hex hread hopt hw hf
  refine ⟨vs, f0, fun f hf => (h1 f hf).1, fun p n d hp hg ty v hr hend => ?_⟩
  have hdok : DOk false d := by
    exact (dok_of hw hf).mems.get hg
  obtain ⟨f1, hf1⟩ := jvAs_at hck henv hdok hr
  refine ⟨d.text, d.text, f1, h2 p n d hp hg, ?_, fun f hf => ?_⟩
  · rw [jvOfRaw, jvMake, trim_ck hck]
    have := trimChecked_text d hdok.wf []
    simpa using this
  · obtain ⟨r, hr'⟩ := hf1 f hf [] afterValue_nil (Or.inr hend)
    rw [List.append_nil] at hr'
    simp [jvAs, hr']

/-- Non-vacuity: `[7]` of the document of C82 as a `std::vector<int>`. -/
example : ∃ vs f0, (∀ f, f0 ≤ f → fromJson {} exTEnv f (.ref 0) (JVal.obj [] exTJm).text = .ok (.cls vs)) ∧
    ∃ x jv f1, vs[2]? = some (Val.txt x) ∧ jvOfRaw {} x = .ok jv ∧
      ∀ f, f1 ≤ f → jvAs {} exTEnv f (.arr (.int exI32 false)) jv = .ok (.arr [.int 7]) := by
  obtain ⟨vs, f0, h1, h2⟩ := C113_later_partial {} rfl exTEnv exTEnv_ok (i := 0) (ms := exTMs) (ex := false) rfl
    [] exTJm exTJm_usable (by decide) (by simp) exTJm_read exTJm_opt exTJm_wf ⟨by decide, by decide⟩
  exact ⟨vs, f0, h1, h2 2 _ exSeven rfl rfl _ _ (.arr (fun _ => ws_nil) (.cons (.int (by decide) (by decide) num7_numeral) .nil)) (endsWell_of rfl)⟩

/-- Missing: a string that is not where it is expected has lost its quotes and is not converted any more, or is converted to what stands between
them; `null` is a value of no type, or a missing member. -/
theorem C113_false_for_later :
    (fromJson {} (exT2 .raw) 9 (.ref 0) asc! "{\"b\":1,\"a\":\"x\"}" = .ok (.cls [.int 1, .txt asc! "\"x\""]) ∧
      jvAs {} (exT2 .raw) 9 (.str true) asc! "\"x\"" = .ok (.str asc! "x")) ∧
    (fromJson {} (exT2 .raw) 9 (.ref 0) asc! "{\"a\":\"x\",\"b\":1}" = .ok (.cls [.int 1, .txt asc! "x"]) ∧
      jvAs {} (exT2 .raw) 9 (.str true) asc! "x" = .err .invalidString) ∧
    (fromJson {} (exT2 .raw) 9 (.ref 0) asc! "{\"a\":\"8\",\"b\":1}" = .ok (.cls [.int 1, .txt asc! "8"]) ∧
      jvAs {} (exT2 .raw) 9 (.int exI32 false) asc! "8" = .ok (.int 8)) ∧
    (fromJson {} (exT2 .raw) 9 (.ref 0) asc! "{\"b\":1,\"a\":null}" = .ok (.cls [.int 1, .txt []]) ∧ jvType {} [] = .ok .none) ∧
    fromJson {} (exT2 .raw) 9 (.ref 0) asc! "{\"a\":null,\"b\":1}" = .err .missingMember := by
  decide +kernel

/-! ## C114 -/

theorem writeJv_text {t : TCfg} (hck : t.cfg.checked = true) {e : JVal} (he : DOk false e) {k : Bytes} (hk : AfterValue k) (seven : Bool) :
    (Seven seven e.text → (∀ b, e ≠ .str b) → writeJv t.cfg seven (e.text ++ k) = .ok e.text) ∧
    (∀ b, e = .str b → Seven seven b → writeJv t.cfg seven (e.text ++ k) = .ok b) := by
  have hsv : e ≠ .null → jvStringView t.cfg (e.text ++ k) = .ok (rangeText false e) := by
    intro hn
    obtain ⟨r, h1, h2, -⟩ := skipValue_exact t.cfg false e he.wf he.depth k hk (fun h => by simp [hck] at h)
      (fun _ h => by simp [hck] at h) (fun h => absurd h hn)
    simp [jvStringView, h1, h2]
  refine ⟨fun h7 hs => ?_, fun b hb h7 => ?_⟩
  · unfold writeJv
    rw [jvType_text _ he.wf, Res.ok_bind]
    by_cases hn : e = .null
    · subst hn
      rw [if_pos (by rfl)]
      exact writeUnescaped_seven h7
    · have hkind : e.kind ≠ .null := by cases e <;> simp_all [JVal.kind]
      rw [if_neg hkind, hsv hn, Res.ok_bind]
      have : rangeText false e = e.text := by
        match e with
        | .str b => exact absurd rfl (hs b)
        | .null => exact absurd rfl hn
        | .tru | .fls | .num _ | .arr _ .nil | .arr _ (.cons ..) | .obj _ .nil | .obj _ (.cons ..) => simp [rangeText]
      rw [this]
      exact writeUnescaped_seven h7
  · subst hb
    unfold writeJv
    rw [jvType_text _ he.wf, Res.ok_bind, if_neg (by simp [JVal.kind]), hsv (by simp), Res.ok_bind]
    simpa [rangeText] using writeUnescaped_seven h7

/-- **C114, partial** (with the theorem that follows).  A value found in a document by a path is written as the text it has there, `null` too.
Missing: strings, see `C114_strings_lose_their_quotes`; text that is not printable ASCII where only that is allowed. -/
theorem C114_write_partial (t : TCfg) (hck : t.cfg.checked = true) (d e : JVal) (hd : d.WF) (hf : d.Fits) (hn : d.NamesOk t.escNames)
    (ss : List Step) (hss : ∀ s ∈ ss, s.Ok) (k : Bytes) (hk : AfterValue k) (h : d.follow ss = some e) (hs : ∀ b, e ≠ .str b) (seven : Bool)
    (h7 : Seven seven e.text) :
    ∃ jv, jvFind t (d.text ++ k) (pathText ss) = .ok jv ∧ writeJv t.cfg seven jv = .ok e.text := by
  obtain ⟨k', h1, h2, he, -⟩ := jvFind_follow hck ss hss (dok_of hd hf) hn k hk h
  exact ⟨_, h1, (writeJv_text hck he h2 seven).1 h7 hs⟩

/-- Non-vacuity: `c` of `{"x":[7] , "c":[{"a":0}],"a": -12}` is written as `[{"a":0}]`. -/
example : ∃ jv, jvFind {} (exDoc.text ++ []) (pathText [.name [0x63]]) = .ok jv ∧ writeJv {} true jv = .ok asc! "[{\"a\":0}]" :=
  C114_write_partial {} rfl exDoc exArr exDoc_wf exDoc_fits (exDoc_names _) [.name [0x63]] (fun s hs => exPath_ok s (by simp_all [exPath])) []
    afterValue_nil rfl (by simp [exArr]) true (fun _ => by decide)

/-- **C114 is false of the code for every string**: a value that is a string is written without its quotes, which is never its text. -/
theorem C114_strings_lose_their_quotes (t : TCfg) (hck : t.cfg.checked = true) (d : JVal) (b : Bytes) (hd : d.WF) (hf : d.Fits)
    (hn : d.NamesOk t.escNames) (ss : List Step) (hss : ∀ s ∈ ss, s.Ok) (k : Bytes) (hk : AfterValue k) (h : d.follow ss = some (.str b))
    (seven : Bool) (h7 : Seven seven b) :
    ∃ jv, jvFind t (d.text ++ k) (pathText ss) = .ok jv ∧ writeJv t.cfg seven jv = .ok b ∧ b ≠ (JVal.str b).text := by
  obtain ⟨k', h1, h2, he, -⟩ := jvFind_follow hck ss hss (dok_of hd hf) hn k hk h
  refine ⟨_, h1, (writeJv_text hck he h2 seven).2 b rfl h7, fun hb => ?_⟩
  have := congrArg List.length hb
  simp only [JVal.text, List.length_cons, List.length_append, List.length_nil] at this
  omega

/-- The result may not be JSON, or be another value: `x` and `1` for `"x"` and `"1"`.  A value of no type, and a `null` kept as a `json_value`,
are not written at all. -/
theorem C114_false_for_strings_and_nothing :
    writeJv {} false asc! "\"x\"" = .ok asc! "x" ∧ ¬ IsJson asc! "x" ∧ writeJv {} false asc! "\"1\"" = .ok asc! "1" ∧ IsJson asc! "1" ∧
    writeJv {} false [] = .err .unexpectedEndOfData ∧
    fromJson {} (exT2 .raw) 9 (.ref 0) asc! "{\"b\":1,\"a\":null}" = .ok (.cls [.int 1, .txt []]) := by
  exact ⟨by decide +kernel, not_json (by decide +kernel), by decide +kernel,
    ⟨.num asc! "1", [], [], num1_wf (by unfold IsDig; decide) (by decide), ws_nil, ws_nil, rfl⟩, by decide +kernel, by decide +kernel⟩

end Verif
