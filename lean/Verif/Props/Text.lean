import Verif.Proof.ZeroTermText
import Verif.Proof.RefParse
import Verif.Props.Date
import Verif.Props.Exact

/-!
# Properties C81–C84: members that take the text of a value

`json_string_raw`, `json_custom`, `json_raw` and `json_date`.
-/

namespace Verif

open Spec

/-- If every mapped member of an object has a meaning and the others are nullable, the object is a value of the class, and each member
has the value that its part of the document means. -/
theorem readsMembers_all {Δ : Env} {nm : List Bytes → Bytes → Prop} {ea : Bool} {jm : JMems} (ms : List Member)
    (hread : ∀ m ∈ ms, ∀ d, jm.get? m.name = some d → ∃ v, Reads Δ nm ea m.ty d v)
    (hopt : ∀ m ∈ ms, jm.get? m.name = none → m.ty.isOpt = true) :
    ∃ vs, ReadsMembers Δ nm ea ms jm vs ∧ vs.length = ms.length ∧
      ∀ (p : Nat) (m : Member) (d : JVal), ms[p]? = some m → jm.get? m.name = some d →
        ∃ v : Val, vs[p]? = some v ∧ Reads Δ nm ea m.ty d v := by
  induction ms with
  | nil => exact ⟨[], .nil, rfl, by simp⟩
  | cons m ms ih =>
    obtain ⟨vs, h1, h2, h3⟩ := ih (fun m hm => hread m (by simp [hm])) fun m hm => hopt m (by simp [hm])
    have tail : ∀ (v : Val), (∀ d, jm.get? m.name = some d → Reads Δ nm ea m.ty d v) →
        ∀ (p : Nat) (m' : Member) (d : JVal), (m :: ms)[p]? = some m' → jm.get? m'.name = some d →
        ∃ x : Val, (v :: vs)[p]? = some x ∧ Reads Δ nm ea m'.ty d x := by
      intro v hv p m' d hp hg
      cases p with
      | zero =>
        simp only [List.getElem?_cons_zero, Option.some.injEq] at hp
        subst hp
        exact ⟨v, rfl, hv d hg⟩
      | succ p => exact h3 p m' d (by simpa using hp) hg
    cases hg : jm.get? m.name with
    | some d =>
      obtain ⟨v, hv⟩ := hread m (by simp) d hg
      exact ⟨v :: vs, .found hg hv h1, by simp [h2], tail v fun d' hd' => by rw [hg] at hd'; cases hd'; exact hv⟩
    | none =>
      exact ⟨.none :: vs, .absent hg (hopt m (by simp) hg) h1, by simp [h2], tail _ fun d' hd' => by rw [hg] at hd'; cases hd'⟩

/-- Both parsers give each member the value that its part of the document means. -/
theorem class_members (t : TCfg) (hck : t.cfg.checked = true) (Δ : Env) (henv : EnvOk Δ) {i : Nat}
    {ms : List Member} {ex : Bool} (hi : Δ i = .obj ms ex) (w : Bytes) (jm : JMems)
    (hn : ∀ n ∈ jm.names, Usable t (ms.map Member.name) n) (honce : ∀ m ∈ ms, jm.names.count m.name ≤ 1)
    (hex : (ex || t.exactAll) = true → ∀ n ∈ jm.names, ∃ m ∈ ms, m.name = n)
    (hread : ∀ m ∈ ms, ∀ d, jm.get? m.name = some d → ∃ v, Reads Δ (Usable t) t.exactAll m.ty d v)
    (hopt : ∀ m ∈ ms, jm.get? m.name = none → m.ty.isOpt = true) (hw : (JVal.obj w jm).WF) (hf : (JVal.obj w jm).Fits) :
    ∃ vs f0, (∀ f, f0 ≤ f → fromJson t Δ f (.ref i) (JVal.obj w jm).text = .ok (.cls vs) ∧
        fromJsonZ t Δ f (.ref i) (JVal.obj w jm).text = .ok (.cls vs)) ∧ vs.length = ms.length ∧
      ∀ (p : Nat) (m : Member) (d : JVal), ms[p]? = some m → jm.get? m.name = some d →
        ∃ v : Val, vs[p]? = some v ∧ Reads Δ (Usable t) t.exactAll m.ty d v := by
  obtain ⟨vs, h1, h2, h3⟩ := readsMembers_all ms hread hopt
  obtain ⟨f0, hf0⟩ := C50_from_json_reads t hck Δ henv _ _ _ (.obj (w := w) hi hn honce hex h1) hw hf (endsWell_of rfl)
  obtain ⟨f1, hf1⟩ := C62_std_string_reads t hck Δ henv _ _ _ (.obj (w := w) hi hn honce hex h1) hw hf (fun _ => rfl)
  exact ⟨vs, max f0 f1, fun f h => ⟨hf0 f (by omega), hf1 f (by omega)⟩, h2, h3⟩

/-! ## C81 -/

/-- **C81, in part.**  `json_string_raw` members and `json_custom` members are given the characters of the document: those between
the quotes of a string, escapes and all, respectively those of a number, `true` or `false`; wherever the member stands in the
object, whatever else the object has, in a `string_view` and in a `std::string`.  Missing: see `C81_false_for_custom`. -/
theorem C81_raw_and_custom_partial (t : TCfg) (hck : t.cfg.checked = true) (Δ : Env) (henv : EnvOk Δ) {i : Nat}
    {ms : List Member} {ex : Bool} (hi : Δ i = .obj ms ex) (w : Bytes) (jm : JMems)
    (hn : ∀ n ∈ jm.names, Usable t (ms.map Member.name) n) (honce : ∀ m ∈ ms, jm.names.count m.name ≤ 1)
    (hex : (ex || t.exactAll) = true → ∀ n ∈ jm.names, ∃ m ∈ ms, m.name = n)
    (hread : ∀ m ∈ ms, ∀ d, jm.get? m.name = some d → ∃ v, Reads Δ (Usable t) t.exactAll m.ty d v)
    (hopt : ∀ m ∈ ms, jm.get? m.name = none → m.ty.isOpt = true) (hw : (JVal.obj w jm).WF) (hf : (JVal.obj w jm).Fits) :
    ∃ vs f0, (∀ f, f0 ≤ f → fromJson t Δ f (.ref i) (JVal.obj w jm).text = .ok (.cls vs) ∧
        fromJsonZ t Δ f (.ref i) (JVal.obj w jm).text = .ok (.cls vs)) ∧ vs.length = ms.length ∧
      (∀ (p : Nat) (n b : Bytes) (ah : Bool), ms[p]? = some ⟨n, .txt (.rawStr ah)⟩ → jm.get? n = some (.str b) →
        vs[p]? = some (Val.txt b)) ∧
      (∀ (p : Nat) (n b : Bytes), ms[p]? = some ⟨n, .txt (.custom .str)⟩ → jm.get? n = some (.str b) →
        vs[p]? = some (Val.txt b)) ∧
      (∀ (p : Nat) (n : Bytes) (c : CustomKind) (d : JVal), ms[p]? = some ⟨n, .txt (.custom c)⟩ → jm.get? n = some d →
        d.IsLit → vs[p]? = some (Val.txt d.text)) := by
  obtain ⟨vs, f0, h1, h2, h3⟩ := class_members t hck Δ henv hi w jm hn honce hex hread hopt hw hf
  refine ⟨vs, f0, h1, h2, fun p n b ah hp hg => ?_, fun p n b hp hg => ?_, fun p n c d hp hg hl => ?_⟩
  · obtain ⟨v, hv, hr⟩ := h3 p _ _ hp hg
    cases hr with
    | txt hr => cases hr; exact hv
  · obtain ⟨v, hv, hr⟩ := h3 p _ _ hp hg
    cases hr with
    | txt hr =>
      cases hr with
      | customStr => exact hv
      | customLit _ h => cases h
  · obtain ⟨v, hv, hr⟩ := h3 p _ _ hp hg
    cases hr with
    | txt hr =>
      cases hr with
      | customStr => cases hl
      | customLit => exact hv

/-! ### A class with a member of each kind -/

/-- `struct T { string r; X c; string j; time_point d; int n; }` -/
def exTMs : List Member :=
  [⟨asc! "r", .txt (.rawStr true)⟩, ⟨asc! "c", .txt (.custom .lit)⟩, ⟨asc! "j", .txt .raw⟩, ⟨asc! "d", .txt .date⟩,
    ⟨asc! "n", .int exI32 false⟩]

def exTEnv : Env := fun _ => .obj exTMs false

theorem exTEnv_ok : EnvOk exTEnv := by
  refine .classes (fun i ms ex h => ?_) (fun i alts h => by cases h)
  cases h
  decide

/-- `{"n":7, "d":"2024-02-29T12:34:56.789Z","j": [7],"x":7,"r":"a\n","c":true}`: not in the order of the class. -/
def exTJm : JMems :=
  .cons [] asc! "n" [] [] (.num asc! "7") [] (.cons [0x20] asc! "d" [] [] (.str (exStamp ++ [0x5A])) []
    (.cons [] asc! "j" [] [0x20] exSeven [] (.cons [] asc! "x" [] [] (.num asc! "7") []
      (.cons [] asc! "r" [] [] (.str asc! "a\\n") [] (.cons [] asc! "c" [] [] .tru [] .nil)))))

theorem exTJm_wf : (JVal.obj [] exTJm).WF := by
  have nm : ∀ c : UInt8, 0x20 ≤ c → c ≠ 0x22 → c ≠ 0x5C → IsStrBody [c] := fun c h1 h2 h3 => name1_wf h1 h2 h3
  have hstamp : IsStrBody (exStamp ++ [0x5A]) := by
    unfold exStamp
    simp only [List.cons_append, List.nil_append]
    repeat (first | exact .nil | refine .plain (by decide) (by decide) (by decide) ?_)
  refine ⟨Or.inl ws_nil, ws_nil, nm _ (by decide) (by decide) (by decide), ws_nil, ws_nil, num7_wf, ws_nil,
    ws_sp, nm _ (by decide) (by decide) (by decide), ws_nil, ws_nil, hstamp, ws_nil,
    ws_nil, nm _ (by decide) (by decide) (by decide), ws_nil, ws_sp, exSeven_wf, ws_nil,
    ws_nil, nm _ (by decide) (by decide) (by decide), ws_nil, ws_nil, num7_wf, ws_nil,
    ws_nil, nm _ (by decide) (by decide) (by decide), ws_nil, ws_nil, ?_, ws_nil,
    ws_nil, nm _ (by decide) (by decide) (by decide), ws_nil, ws_nil, trivial, ws_nil, trivial⟩
  exact .plain (by decide) (by decide) (by decide) (.esc (by unfold isSimpleEsc; decide) .nil)

theorem exTJm_usable : ∀ n ∈ exTJm.names, Usable {} (exTMs.map Member.name) n := by
  intro n hn
  refine ⟨Or.inl ?_, Or.inr (Or.inr ?_)⟩
  all_goals
    simp only [exTJm, JMems.names, JMems.toList, List.map_cons, List.map_nil, List.mem_cons, List.not_mem_nil, or_false] at hn
  · rcases hn with rfl | rfl | rfl | rfl | rfl | rfl <;> (unfold PlainName; decide)
  · rcases hn with rfl | rfl | rfl | rfl | rfl | rfl <;> decide +kernel

theorem exStamp_utc : IsUtcText (exStamp ++ [0x5A]) 1709210096789 :=
  ⟨exStamp, [0x5A], 2024, 2, 29, 12, 34, 56, 789000000, rfl, exStamp_local, .inr rfl, by decide, by decide +kernel, by decide,
    by decide, by decide, by decide +kernel⟩

theorem exTJm_read : ∀ m ∈ exTMs, ∀ d, exTJm.get? m.name = some d → ∃ v, Reads exTEnv (Usable {}) false m.ty d v := by
  intro m hm d hd
  simp only [exTMs, List.mem_cons, List.not_mem_nil, or_false] at hm
  rcases hm with rfl | rfl | rfl | rfl | rfl
  · cases hd; exact ⟨_, .txt .rawStr⟩
  · cases hd; exact ⟨_, .txt (.customLit (by simp) trivial)⟩
  · cases hd; exact ⟨_, .txt (.raw (by simp [exSeven]) (by simp [exSeven]))⟩
  · cases hd; exact ⟨_, .txt (.date exStamp_utc)⟩
  · cases hd; exact ⟨_, .int (by decide) (by decide) num7_numeral⟩

theorem exTJm_opt : ∀ m ∈ exTMs, exTJm.get? m.name = none → m.ty.isOpt = true := by
  intro m hm hd
  simp only [exTMs, List.mem_cons, List.not_mem_nil, or_false] at hm
  rcases hm with rfl | rfl | rfl | rfl | rfl <;> cases hd

/-- Non-vacuity: the raw string of the document above is `a\n` with the escape, the custom type is `true`. -/
example : ∃ vs f0, (∀ f, f0 ≤ f → fromJson {} exTEnv f (.ref 0) (JVal.obj [] exTJm).text = .ok (.cls vs) ∧
      fromJsonZ {} exTEnv f (.ref 0) (JVal.obj [] exTJm).text = .ok (.cls vs)) ∧
    vs[0]? = some (Val.txt asc! "a\\n") ∧ vs[1]? = some (Val.txt asc! "true") := by
  obtain ⟨vs, f0, h1, _, h2, _, h3⟩ := C81_raw_and_custom_partial {} rfl exTEnv exTEnv_ok (i := 0) (ms := exTMs) (ex := false) rfl
    [] exTJm exTJm_usable (by decide) (by simp) exTJm_read exTJm_opt exTJm_wf ⟨by decide, by decide⟩
  exact ⟨vs, f0, h1, h2 0 _ _ _ rfl rfl, h3 1 _ _ .tru rfl rfl trivial⟩

/-- A class with one member, and one with an `int` in front of it. -/
def exT1 (k : TxtKind) : Env := fun _ => .obj [⟨asc! "a", .txt k⟩] false
def exT2 (k : TxtKind) : Env := fun _ => .obj [⟨asc! "b", .int exI32 false⟩, ⟨asc! "a", .txt k⟩] false

/-- **C81 is false of the code** for custom types.  A `json_custom` stored as a string is not read from the empty string or from one
that starts like an array or object; one stored as a literal is not read from `null`; one that takes any value is given a string
without its closing quote, and is not read from arrays, objects or `null`, although `daw_json_type_options.h` L239-248 says
otherwise.  And when the member is not where it is expected, the kind of the value is not looked at. -/
theorem C81_false_for_custom :
    fromJson {} (exT1 (.custom .str)) 9 (.ref 0) asc! "{\"a\":\"\"}" = .err .invalidStartOfValue ∧
    fromJson {} (exT1 (.custom .str)) 9 (.ref 0) asc! "{\"a\":\"[x\"}" = .err .invalidStartOfValue ∧
    fromJson {} (exT1 (.custom .lit)) 9 (.ref 0) asc! "{\"a\":null}" = .err .invalidStartOfValue ∧
    fromJson {} (exT1 (.custom .any)) 9 (.ref 0) asc! "{\"a\":\"x\"}" = .ok (.cls [.txt asc! "\"x"]) ∧
    fromJsonZ {} (exT1 (.custom .any)) 9 (.ref 0) asc! "{\"a\":\"x\"}" = .ok (.cls [.txt asc! "\"x"]) ∧
    fromJson {} (exT1 (.custom .any)) 9 (.ref 0) asc! "{\"a\":[1]}" = .err .invalidStartOfValue ∧
    fromJson {} (exT1 (.custom .any)) 9 (.ref 0) asc! "{\"a\":{}}" = .err .invalidStartOfValue ∧
    fromJson {} (exT1 (.custom .any)) 9 (.ref 0) asc! "{\"a\":null}" = .err .invalidStartOfValue ∧
    fromJson {} (exT2 (.custom .lit)) 9 (.ref 0) asc! "{\"b\":1,\"a\":\"x\"}" = .err .invalidStartOfValue ∧
    fromJson {} (exT2 (.custom .lit)) 9 (.ref 0) asc! "{\"a\":\"x\",\"b\":1}" = .ok (.cls [.int 1, .txt asc! "x"]) := by
  decide +kernel

/-! ## C82 -/

/-- **C82, in part.**  A `json_raw` member is given the text of the value in the document: numbers, booleans, arrays and objects,
with all their whitespace and none around them; wherever the member stands in the object, whatever else the object has, in a
`string_view` and in a `std::string`.  Missing: strings and `null`, see `C82_false_for_strings_and_null`. -/
theorem C82_raw_json_partial (t : TCfg) (hck : t.cfg.checked = true) (Δ : Env) (henv : EnvOk Δ) {i : Nat}
    {ms : List Member} {ex : Bool} (hi : Δ i = .obj ms ex) (w : Bytes) (jm : JMems)
    (hn : ∀ n ∈ jm.names, Usable t (ms.map Member.name) n) (honce : ∀ m ∈ ms, jm.names.count m.name ≤ 1)
    (hex : (ex || t.exactAll) = true → ∀ n ∈ jm.names, ∃ m ∈ ms, m.name = n)
    (hread : ∀ m ∈ ms, ∀ d, jm.get? m.name = some d → ∃ v, Reads Δ (Usable t) t.exactAll m.ty d v)
    (hopt : ∀ m ∈ ms, jm.get? m.name = none → m.ty.isOpt = true) (hw : (JVal.obj w jm).WF) (hf : (JVal.obj w jm).Fits) :
    ∃ vs f0, (∀ f, f0 ≤ f → fromJson t Δ f (.ref i) (JVal.obj w jm).text = .ok (.cls vs) ∧
        fromJsonZ t Δ f (.ref i) (JVal.obj w jm).text = .ok (.cls vs)) ∧ vs.length = ms.length ∧
      ∀ (p : Nat) (n : Bytes) (d : JVal), ms[p]? = some ⟨n, .txt .raw⟩ → jm.get? n = some d → vs[p]? = some (Val.txt d.text) := by
  obtain ⟨vs, f0, h1, h2, h3⟩ := class_members t hck Δ henv hi w jm hn honce hex hread hopt hw hf
  refine ⟨vs, f0, h1, h2, fun p n d hp hg => ?_⟩
  obtain ⟨v, hv, hr⟩ := h3 p _ _ hp hg
  cases hr with
  | txt hr => cases hr; exact hv

/-- Non-vacuity: `[7]` in the document above. -/
example : ∃ vs f0, (∀ f, f0 ≤ f → fromJson {} exTEnv f (.ref 0) (JVal.obj [] exTJm).text = .ok (.cls vs) ∧
      fromJsonZ {} exTEnv f (.ref 0) (JVal.obj [] exTJm).text = .ok (.cls vs)) ∧
    vs[2]? = some (Val.txt asc! "[7]") := by
  obtain ⟨vs, f0, h1, _, h2⟩ := C82_raw_json_partial {} rfl exTEnv exTEnv_ok (i := 0) (ms := exTMs) (ex := false) rfl
    [] exTJm exTJm_usable (by decide) (by simp) exTJm_read exTJm_opt exTJm_wf ⟨by decide, by decide⟩
  exact ⟨vs, f0, h1, h2 2 _ exSeven rfl rfl⟩

/-- **C82 is false of the code** for strings and for `null`, with either input: the text of a string has its quotes if the member is
where it is expected and lacks them if other members come first; `null` has the empty text in the one case and counts as an absent
member in the other. -/
theorem C82_false_for_strings_and_null :
    fromJson {} (exT2 .raw) 9 (.ref 0) asc! "{\"b\":1,\"a\":\"x\"}" = .ok (.cls [.int 1, .txt asc! "\"x\""]) ∧
    fromJson {} (exT2 .raw) 9 (.ref 0) asc! "{\"a\":\"x\",\"b\":1}" = .ok (.cls [.int 1, .txt asc! "x"]) ∧
    fromJsonZ {} (exT2 .raw) 9 (.ref 0) asc! "{\"b\":1,\"a\":\"x\"}" = .ok (.cls [.int 1, .txt asc! "\"x\""]) ∧
    fromJsonZ {} (exT2 .raw) 9 (.ref 0) asc! "{\"a\":\"x\",\"b\":1}" = .ok (.cls [.int 1, .txt asc! "x"]) ∧
    fromJson {} (exT2 .raw) 9 (.ref 0) asc! "{\"b\":1,\"a\":null}" = .ok (.cls [.int 1, .txt []]) ∧
    fromJson {} (exT2 .raw) 9 (.ref 0) asc! "{\"a\":null,\"b\":1}" = .err .missingMember ∧
    fromJsonZ {} (exT2 .raw) 9 (.ref 0) asc! "{\"b\":1,\"a\":null}" = .ok (.cls [.int 1, .txt []]) ∧
    fromJsonZ {} (exT2 .raw) 9 (.ref 0) asc! "{\"a\":null,\"b\":1}" = .err .missingMember := by decide +kernel

/-! ## C83 -/

/-- **C83.**  A `json_date` member is given the instant that its text denotes, for timestamps in UTC: wherever the member stands in
the object, whatever else the object has, in a `string_view` and in a `std::string`. -/
theorem C83_date_members (t : TCfg) (hck : t.cfg.checked = true) (Δ : Env) (henv : EnvOk Δ) {i : Nat}
    {ms : List Member} {ex : Bool} (hi : Δ i = .obj ms ex) (w : Bytes) (jm : JMems)
    (hn : ∀ n ∈ jm.names, Usable t (ms.map Member.name) n) (honce : ∀ m ∈ ms, jm.names.count m.name ≤ 1)
    (hex : (ex || t.exactAll) = true → ∀ n ∈ jm.names, ∃ m ∈ ms, m.name = n)
    (hread : ∀ m ∈ ms, ∀ d, jm.get? m.name = some d → ∃ v, Reads Δ (Usable t) t.exactAll m.ty d v)
    (hopt : ∀ m ∈ ms, jm.get? m.name = none → m.ty.isOpt = true) (hw : (JVal.obj w jm).WF) (hf : (JVal.obj w jm).Fits) :
    ∃ vs f0, (∀ f, f0 ≤ f → fromJson t Δ f (.ref i) (JVal.obj w jm).text = .ok (.cls vs) ∧
        fromJsonZ t Δ f (.ref i) (JVal.obj w jm).text = .ok (.cls vs)) ∧ vs.length = ms.length ∧
      ∀ (p : Nat) (n b : Bytes) (x : Int), ms[p]? = some ⟨n, .txt .date⟩ → jm.get? n = some (.str b) → IsUtcText b x →
        vs[p]? = some (Val.date x) := by
  obtain ⟨vs, f0, h1, h2, h3⟩ := class_members t hck Δ henv hi w jm hn honce hex hread hopt hw hf
  refine ⟨vs, f0, h1, h2, fun p n b x hp hg hx => ?_⟩
  obtain ⟨v, hv, hr⟩ := h3 p _ _ hp hg
  cases hr with
  | txt hr =>
    cases hr with
    | date hy =>
      have := (parseTimestamp_reads hx).symm.trans (parseTimestamp_reads hy)
      cases this
      exact hv

/-- Non-vacuity: the timestamp in the document above. -/
example : ∃ vs f0, (∀ f, f0 ≤ f → fromJson {} exTEnv f (.ref 0) (JVal.obj [] exTJm).text = .ok (.cls vs) ∧
      fromJsonZ {} exTEnv f (.ref 0) (JVal.obj [] exTJm).text = .ok (.cls vs)) ∧
    vs[3]? = some (Val.date 1709210096789) := by
  obtain ⟨vs, f0, h1, _, h2⟩ := C83_date_members {} rfl exTEnv exTEnv_ok (i := 0) (ms := exTMs) (ex := false) rfl
    [] exTJm exTJm_usable (by decide) (by simp) exTJm_read exTJm_opt exTJm_wf ⟨by decide, by decide⟩
  exact ⟨vs, f0, h1, h2 3 _ _ _ rfl rfl exStamp_utc⟩

/-! ## C84 -/

/-- **C84, in part.**  What a `json_string_raw`, `json_custom` or `json_raw` was read from is written again byte for byte, in every
format.  (That it survives inside of classes, arrays and maps is part of C18.)  Missing: `null` and strings as raw JSON, custom types
that take any value, text that is not printable ASCII where only that is allowed; see `C84_false`. -/
theorem C84_text_is_written_back_partial (w : WCfg) (Δ : Env) (n : Nat) (k : TxtKind) (d : JVal) (v : Val) (hr : ReadsTxt k d v)
    (hk : k ≠ .date) (hreal : ∀ dbl fmt, k ≠ .real dbl fmt) (hq : ∀ al l, k ≠ .quoted al l)
    (hany : k ≠ .custom .any) (hah : ∀ ah b, k = .rawStr ah → d = .str b → Seven (!ah) b)
    (h7 : Seven w.only7bit d.text) : writeVal w Δ n (.txt k) v = .ok d.text := by
  have sub : ∀ b, d = .str b → Seven w.only7bit b := fun b hb h c hc => h7 h c (by
    subst hb
    simp [JVal.text, hc])
  cases hr with
  | @rawStr ah b =>
    have h1 : Seven (!ah || w.only7bit) b := by
      intro h
      cases ha : !ah
      · rw [ha] at h
        exact sub b rfl h
      · exact hah ah b rfl rfl ha
    simp only [writeVal, writeTxt, writeUnescaped_seven h1]
    simp [JVal.text]
  | date => exact absurd rfl hk
  | real => exact absurd rfl (hreal _ _)
  | quoted => exact absurd rfl (hq _ _)
  | bare => exact absurd rfl (hq _ _)
  | @customStr b _ =>
    simp only [writeVal, writeTxt, writeUnescaped_seven (sub b rfl)]
    simp [JVal.text]
  | @customLit c d h1 _ =>
    cases c with
    | str => exact absurd rfl h1
    | any => exact absurd rfl hany
    | lit => simp only [writeVal, writeTxt, writeUnescaped_seven h7]
  | raw => simp only [writeVal, writeTxt, writeUnescaped_seven h7]

/-- Non-vacuity: `[7]` as raw JSON, pretty printed, and a raw string with an escape. -/
example : writeVal { pretty := true } exTEnv 0 (.txt .raw) (.txt exSeven.text) = .ok asc! "[7]" ∧
    writeVal { only7bit := true } exTEnv 0 (.txt (.rawStr false)) (.txt asc! "a\\n") = .ok asc! "\"a\\n\"" := by
  refine ⟨C84_text_is_written_back_partial _ _ _ .raw exSeven _ (.raw (by simp [exSeven]) (by simp [exSeven])) (by simp) (by simp) (by simp) (by simp) (by simp)
      (fun h => by cases h), C84_text_is_written_back_partial _ _ _ (.rawStr false) (.str asc! "a\\n") _ .rawStr (by simp) (by simp) (by simp) (by simp)
      (fun ah b h1 h2 _ => ?_) (fun _ => ?_)⟩
  · cases h2; decide
  · decide

/-- **C84 is false of the code.**  `null` and a string that was not where it was expected, read as raw JSON, and whatever was read as
a custom type that takes any value, are not written as they were; the first two, and strings as such a custom type, give text
that is not JSON.  With `OnlyAllow7bitsStrings` raw JSON with a line feed in it is not written at all. -/
theorem C84_false :
    (fromJson {} (exT2 .raw) 9 (.ref 0) asc! "{\"b\":1,\"a\":null}" = .ok (.cls [.int 1, .txt []]) ∧
      toJson {} (exT2 .raw) (.ref 0) (.cls [.int 1, .txt []]) = .ok asc! "{\"b\":1,\"a\":}" ∧ ¬ IsJson asc! "{\"b\":1,\"a\":}") ∧
    (fromJson {} (exT2 .raw) 9 (.ref 0) asc! "{\"a\":\"x\",\"b\":1}" = .ok (.cls [.int 1, .txt asc! "x"]) ∧
      toJson {} (exT2 .raw) (.ref 0) (.cls [.int 1, .txt asc! "x"]) = .ok asc! "{\"b\":1,\"a\":x}" ∧
      ¬ IsJson asc! "{\"b\":1,\"a\":x}") ∧
    (fromJson {} (exT1 (.custom .any)) 9 (.ref 0) asc! "{\"a\":\"x\"}" = .ok (.cls [.txt asc! "\"x"]) ∧
      toJson {} (exT1 (.custom .any)) (.ref 0) (.cls [.txt asc! "\"x"]) = .ok asc! "{\"a\":\"\"x\"}" ∧
      ¬ IsJson asc! "{\"a\":\"\"x\"}") ∧
    (fromJson {} (exT1 (.custom .any)) 9 (.ref 0) asc! "{\"a\":1}" = .ok (.cls [.txt asc! "1"]) ∧
      toJson {} (exT1 (.custom .any)) (.ref 0) (.cls [.txt asc! "1"]) = .ok asc! "{\"a\":\"1\"}") ∧
    (fromJson {} (exT1 .raw) 9 (.ref 0) asc! "{\"a\":[\n]}" = .ok (.cls [.txt asc! "[\n]"]) ∧
      toJson { only7bit := true } (exT1 .raw) (.ref 0) (.cls [.txt asc! "[\n]"]) = .err .invalidStringHighASCII) := by
  refine ⟨⟨by decide +kernel, by decide +kernel, not_json (by decide +kernel)⟩,
    ⟨by decide +kernel, by decide +kernel, not_json (by decide +kernel)⟩,
    ⟨by decide +kernel, by decide +kernel, not_json (by decide +kernel)⟩, ⟨by decide +kernel, by decide +kernel⟩,
    ⟨by decide +kernel, by decide +kernel⟩⟩

end Verif
