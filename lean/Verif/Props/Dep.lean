import Verif.Proof.DepMain
import Verif.Props.Variant

/-!
# Properties C88–C90: members that depend on another member of the class
-/

namespace Verif

open Spec

/-! ## C88 -/

/-- **C88, partial.**  A class with tagged variants, sized arrays and arrays of pairs among its members: if the object means a value, then
`from_json` gives that value; in particular each tagged variant holds the alternative that goes with its tag, wherever the tag stands.
Missing: what `PlaceOk` asks of the places of the members, see `C88_false_number_in_front_of_tag`, `C88_false_string_in_front_of_tag`,
`C89_false_in_front_of_size`, `C90_false_space_in_empty_array`; and tagged variants with `UseExactMappingsByDefault`, for which `ReadsDep` asks that the object
has no member but the tag, see `C88_false_with_exact_mappings`. -/
theorem C88_dependent_members_partial (t : TCfg) (hck : t.cfg.checked = true) (Δ : Env) (henv : EnvOk Δ) (ms : List DMember)
    (hnd : (ms.map DMember.name).Nodup) (ex : Bool) (w : Bytes) (jm : JMems) (vs : List Val)
    (h : ReadsClass Δ (Usable t) t.exactAll ex jm ms vs)
    (hp : ∀ (p : Nat) m v, ms[p]? = some m → vs[p]? = some v → m.name ∈ jm.names → PlaceOk jm (ms.map DMember.name) p m v)
    (hw : (JVal.obj w jm).WF) (hf : (JVal.obj w jm).Fits) :
    ∃ f0, ∀ f, f0 ≤ f → fromJsonDep t Δ f ms ex (JVal.obj w jm).text = .ok (.cls vs) := by
  obtain ⟨f0, hf0⟩ := fromJsonDep_reads hck henv usable_nameOk rfl hnd (dok_of hw hf) h hp []
  refine ⟨f0, fun f hle => ?_⟩
  simpa [dropNul, trimChecked] using hf0 f hle

/-! ### A concrete mapping and documents

`struct V { int t; variant<int, string, vector<int>, double> v; }`, `json_tagged_variant<"v", ..., json_number<"t", int>, S>`. -/

/-- The switcher: the tag is the number of the alternative. -/
def exDepSw : Val → Nat
  | .int n => n.toNat
  | _ => 9

/-- The number of the alternative is the tag. -/
def exDepWr : List Val → Val
  | [_, .alt k _] => .int k
  | _ => .none

def exDepTag : Member := ⟨asc! "t", .int exI32 true⟩

def exDepV : DMember :=
  { name := asc! "v", ty := .tagged exDepTag exDepSw exDepWr [.int exI32 true, .str true, .arr (.int exI32 true), .txt (.real true .auto)] }

/-- The members of `V`. -/
def exDepMs : List DMember := [{ name := asc! "t", ty := .plain (.int exI32 true) }, exDepV]

/-- The object with the two members, tag first or last. -/
def exDepMems (tagFirst : Bool) (n : UInt8) (d : JVal) : JMems :=
  if tagFirst then .cons [] asc! "t" [] [] (.num [n]) [] (.cons [0x20] asc! "v" [] [] d [] .nil)
  else .cons [] asc! "v" [] [] d [] (.cons [0x20] asc! "t" [] [] (.num [n]) [] .nil)

theorem exDep_names {b : Bool} {n : UInt8} {d : JVal} {N : List Bytes} (hN : asc! "t" ∈ N) :
    ∀ x ∈ (exDepMems b n d).names, Usable {} [asc! "t"] x ∧ (N = [asc! "t", asc! "v"] → Usable {} N x) := by
  intro x hx
  have : x = asc! "t" ∨ x = asc! "v" := by
    cases b <;> simp [exDepMems, JMems.names, JMems.toList] at hx <;> rcases hx with h | h <;> simp [h]
  refine ⟨?_, ?_⟩
  · rcases this with rfl | rfl
    · exact usable_own (by simp) (Or.inl (by unfold PlainName; decide))
    · exact ⟨Or.inl (by unfold PlainName; decide), Or.inr (Or.inr (by decide +kernel))⟩
  · rintro rfl
    rcases this with rfl | rfl <;> exact usable_own (by simp) (Or.inl (by unfold PlainName; decide))

theorem exDep_class {b : Bool} {n : UInt8} {i : Int} (hi : IsNumeral [n] i) (hr : exI32.InRange i) {d : JVal} (hd : d ≠ .null) {ty : Ty}
    (hty : [Ty.int exI32 true, .str true, .arr (.int exI32 true), .txt (.real true .auto)][i.toNat]? = some ty) {v : Val}
    (h : Reads (fun _ => .obj [] false) (Usable {}) false ty d v) :
    ReadsClass (fun _ => .obj [] false) (Usable {}) false false (exDepMems b n d) exDepMs [.int i, .alt i.toNat v] where
  names x hx := (exDep_names (N := [asc! "t", asc! "v"]) (by simp) x hx).2 rfl
  once := by cases b <;> simp [exDepMs, exDepV, exDepMems, JMems.names, JMems.toList]
  exact := by simp
  mems := by
    have hti : ReadsMembers (fun _ => .obj [] false) (Usable {}) false [exDepTag] (exDepMems b n d) [.int i] :=
      .found (d := .num [n]) (by cases b <;> simp [exDepTag, exDepMems, JMems_get?_cons]) (.int (by decide) hr hi) .nil
    refine .found (m := { name := asc! "t", ty := .plain (.int exI32 true) }) (d := .num [n]) (v := .int i)
      (by cases b <;> simp [exDepMems, JMems_get?_cons]) (by simp) (.plain (.int (by decide) hr hi))
      (.found (m := exDepV) (d := d) (v := .alt i.toNat v) (by cases b <;> simp [exDepV, exDepMems, JMems_get?_cons]) hd ?_ .nil)
    refine .tagged (x := .int i) (fun x hx => (exDep_names (N := [asc! "t"]) (by simp) x hx).1) ?_ (by simp) hti hty h
    cases b <;> simp [exDepTag, exDepMems, JMems.names, JMems.toList]

theorem exDep_ok : EnvOk (fun _ => .obj [] false) := .classes (by intro i ms ex h; cases h; simp) (by intro i alts h; cases h)

theorem exDep_wf {b : Bool} {n : UInt8} (hn : (JVal.num [n]).WF) {d : JVal} (hd : d.WF) : (JVal.obj [] (exDepMems b n d)).WF := by
  have h1 : IsStrBody asc! "t" := name1_wf (by decide) (by decide) (by decide)
  have h2 : IsStrBody asc! "v" := name1_wf (by decide) (by decide) (by decide)
  cases b
  · exact ⟨Or.inl ws_nil, ws_nil, h2, ws_nil, ws_nil, hd, ws_nil, ws_sp, h1, ws_nil, ws_nil, hn, ws_nil, trivial⟩
  · exact ⟨Or.inl ws_nil, ws_nil, h1, ws_nil, ws_nil, hn, ws_nil, ws_sp, h2, ws_nil, ws_nil, hd, ws_nil, trivial⟩

theorem exTwo_numeral : IsNumeral [0x32] 2 := ⟨Or.inr ⟨⟨by simp, by simp [IsDig, UInt8.le_iff_toNat_le]⟩, by simp⟩, by decide⟩

/-- Non-vacuity: `{"v":[1], "t":2}`, the tag last. -/
example : ∃ f0, ∀ f, f0 ≤ f → fromJsonDep {} (fun _ => .obj [] false) f exDepMs false
    (JVal.obj [] (exDepMems false 0x32 (.arr [] (.cons [] (.num [0x31]) [] .nil)))).text = .ok (.cls [.int 2, .alt 2 (.arr [.int 1])]) := by
  refine C88_dependent_members_partial {} rfl _ exDep_ok exDepMs (by decide) false [] _ _
    (exDep_class exTwo_numeral (by decide) (by simp) (ty := .arr (.int exI32 true)) rfl
      (.arr (by simp) (.cons (.int (by decide) (by decide) exOne_numeral) .nil))) ?_
    (exDep_wf (num1_wf (by unfold IsDig; decide) (by decide))
      ⟨Or.inl ws_nil, ws_nil, num1_wf (by unfold IsDig; decide) (by decide), ws_nil, trivial⟩) ⟨by decide, by decide⟩
  intro p m v hm hv _
  match p with
  | 0 => cases hm; trivial
  | 1 =>
    cases hm
    refine Or.inr fun d hd => ?_
    simp [exDepMems, exDepV, JMems_get?_cons] at hd
    subst hd
    cases hv
    simp [JVal.jkind, Val.bareLit]
  | p + 2 => cases hm

/-- Non-vacuity: `{"t":1, "v":"a"}`, the tag first and a string. -/
example : ∃ f0, ∀ f, f0 ≤ f → fromJsonDep {} (fun _ => .obj [] false) f exDepMs false
    (JVal.obj [] (exDepMems true 0x31 (.str asc! "a"))).text = .ok (.cls [.int 1, .alt 1 (.str asc! "a")]) := by
  refine C88_dependent_members_partial {} rfl _ exDep_ok exDepMs (by decide) false [] _ _
    (exDep_class exOne_numeral (by decide) (by simp) (ty := .str true) rfl (.str (.plain (by decide) (by decide) (by decide) .nil))) ?_
    (exDep_wf (num1_wf (by unfold IsDig; decide) (by decide)) (name1_wf (by decide) (by decide) (by decide))) ⟨by decide, by decide⟩
  intro p m v hm hv _
  match p with
  | 0 => cases hm; trivial
  | 1 =>
    cases hm
    refine Or.inl fun j n n' hj hn hn' => ?_
    obtain rfl : j = 0 := by omega
    cases hn
    cases hn'
    exact ⟨by unfold JMems.Before; decide, fun h => by simp [exDepMems, JMems_get?_cons] at h⟩
  | p + 2 => cases hm

/-- C88 is false of the code for a number that stands in front of a member mapped before it: while the other member is looked for the
number is passed over and the positions of its decimal point and exponent are stored where `find_index` looks for the class.
`{"v":5, "t":0}` is a value of `V`, but it is rejected; for `{"v":1e3, "t":3}` a null pointer is read.  Not so for
`{"t":0, "v":5}`. -/
theorem C88_false_number_in_front_of_tag :
    ReadsClass (fun _ => .obj [] false) (Usable {}) false false (exDepMems false 0x30 (.num asc! "1")) exDepMs [.int 0, .alt 0 (.int 1)] ∧
    fromJsonDep {} (fun _ => .obj [] false) 9 exDepMs false (JVal.obj [] (exDepMems false 0x30 (.num asc! "1"))).text = .err .invalidClassStart ∧
    fromJsonDep {} (fun _ => .obj [] false) 9 exDepMs false (JVal.obj [] (exDepMems true 0x30 (.num asc! "1"))).text
      = .ok (.cls [.int 0, .alt 0 (.int 1)]) ∧
    fromJsonDep {} (fun _ => .obj [] false) 9 exDepMs false (JVal.obj [] (exDepMems false 0x33 (.num asc! "1e3"))).text = .ub ∧
    fromJsonDep {} (fun _ => .obj [] false) 9 exDepMs false (JVal.obj [] (exDepMems true 0x33 (.num asc! "1e3"))).text
      = .ok (.cls [.int 3, .alt 3 (.real (Dec.of false 1 3))]) :=
  ⟨exDep_class exZero_numeral (by decide) (by simp) (ty := .int exI32 true) rfl (.int (by decide) (by decide) exOne_numeral),
    by decide +kernel, by decide +kernel, by decide +kernel, by decide +kernel⟩

/-- C88 is false of the code for a string that stands in front of a member mapped before it: its range has no quotes, but it is parsed
as if it had.  `{"v":"a", "t":1}` is a value of `V`, but it is rejected. -/
theorem C88_false_string_in_front_of_tag :
    ReadsClass (fun _ => .obj [] false) (Usable {}) false false (exDepMems false 0x31 (.str asc! "a")) exDepMs [.int 1, .alt 1 (.str asc! "a")] ∧
    fromJsonDep {} (fun _ => .obj [] false) 9 exDepMs false (JVal.obj [] (exDepMems false 0x31 (.str asc! "a"))).text = .err .invalidString ∧
    fromJsonDep {} (fun _ => .obj [] false) 9 exDepMs false (JVal.obj [] (exDepMems true 0x31 (.str asc! "a"))).text
      = .ok (.cls [.int 1, .alt 1 (.str asc! "a")]) :=
  ⟨exDep_class exOne_numeral (by decide) (by simp) (ty := .str true) rfl (.str (.plain (by decide) (by decide) (by decide) .nil)),
    by decide +kernel, by decide +kernel⟩

/-- C88 is false of the code with the option `UseExactMappingsByDefault`: the tag is read as the only member of a class, so the variant
itself is an unmapped member of that class. -/
theorem C88_false_with_exact_mappings :
    fromJsonDep { exactAll := true } (fun _ => .obj [] false) 9 exDepMs false (JVal.obj [] (exDepMems true 0x31 (.str asc! "a"))).text
      = .err .unknownMember ∧
    fromJsonDep {} (fun _ => .obj [] false) 9 exDepMs true (JVal.obj [] (exDepMems true 0x31 (.str asc! "a"))).text
      = .ok (.cls [.int 1, .alt 1 (.str asc! "a")]) := ⟨by decide +kernel, by decide +kernel⟩

/-- **C88, the tag decides.**  Whatever the mapping and wherever the members stand: if `from_json` accepts an object whose tag is `x`, then the
variant holds the alternative whose number the switcher gives for `x`, or it is nullable and empty; there is no other outcome. -/
theorem C88_tag_decides (t : TCfg) (hck : t.cfg.checked = true) (Δ : Env) (henv : EnvOk Δ) (ms : List DMember) (ex : Bool) (w : Bytes) (jm : JMems)
    (p : Nat) (m : DMember) (tag : Member) (sw : Val → Nat) (wr : List Val → Val) (alts : List Ty) (x : Val) (hm : ms[p]? = some m)
    (hty : m.ty = .tagged tag sw wr alts) (hn : ∀ n ∈ jm.names, Usable t [tag.name] n) (honce : jm.names.count tag.name ≤ 1)
    (hex : t.exactAll = true → ∀ n ∈ jm.names, n = tag.name) (hx : ReadsMembers Δ (Usable t) t.exactAll [tag] jm [x])
    (hw : (JVal.obj w jm).WF) (hf : (JVal.obj w jm).Fits) :
    ∃ f0, ∀ f, f0 ≤ f → ∀ v, fromJsonDep t Δ f ms ex (JVal.obj w jm).text = .ok v →
      ∃ vs y, v = .cls vs ∧ vs[p]? = some y ∧ ((m.opt = true ∧ y = .none) ∨
        ∃ z, sw x < alts.length ∧ y = if m.opt then .some (.alt (sw x) z) else .alt (sw x) z) := by
  have := fromJsonDep_tagged (ex := ex) hck henv usable_nameOk rfl (dok_of hw hf) hm hty hn honce hex hx []
  simpa using this

/-- **C88, unknown tags.**  If there is no alternative for the tag then the object is not accepted. -/
theorem C88_unknown_tag (t : TCfg) (hck : t.cfg.checked = true) (Δ : Env) (henv : EnvOk Δ) (ms : List DMember) (ex : Bool) (w : Bytes) (jm : JMems)
    (m : DMember) (tag : Member) (sw : Val → Nat) (wr : List Val → Val) (alts : List Ty) (x : Val) (hm : m ∈ ms) (hopt : m.opt = false)
    (hty : m.ty = .tagged tag sw wr alts) (hn : ∀ n ∈ jm.names, Usable t [tag.name] n) (honce : jm.names.count tag.name ≤ 1)
    (hex : t.exactAll = true → ∀ n ∈ jm.names, n = tag.name) (hx : ReadsMembers Δ (Usable t) t.exactAll [tag] jm [x])
    (hsw : alts.length ≤ sw x) (hw : (JVal.obj w jm).WF) (hf : (JVal.obj w jm).Fits) :
    ∃ f0, ∀ f, f0 ≤ f → ∀ v, fromJsonDep t Δ f ms ex (JVal.obj w jm).text ≠ .ok v := by
  obtain ⟨p, hp, hpm⟩ := List.getElem_of_mem hm
  obtain ⟨f0, hf0⟩ := C88_tag_decides t hck Δ henv ms ex w jm p m tag sw wr alts x (List.getElem?_eq_some_iff.2 ⟨hp, hpm⟩) hty hn honce hex hx hw hf
  refine ⟨f0, fun f hle v hv => ?_⟩
  obtain ⟨-, -, -, -, ⟨h, -⟩ | ⟨z, h, -⟩⟩ := hf0 f hle v hv
  · rw [hopt] at h; cases h
  · omega

/-- Non-vacuity: `{"v":"a", "t":7}`; there is no alternative 7. -/
example : ∃ f0, ∀ f, f0 ≤ f → ∀ v, fromJsonDep {} (fun _ => .obj [] false) f exDepMs false
    (JVal.obj [] (exDepMems false 0x37 (.str asc! "a"))).text ≠ .ok v := by
  refine C88_unknown_tag {} rfl _ exDep_ok exDepMs false [] _ exDepV exDepTag exDepSw exDepWr _ (.int 7) (by simp [exDepMs]) rfl rfl
    (fun x hx => (exDep_names (N := [asc! "t"]) (by simp) x hx).1) (by decide) (by simp)
    (.found (d := .num [0x37]) (by simp [exDepTag, exDepMems, JMems_get?_cons]) (.int (by decide) (by decide) num7_numeral) .nil) (by decide)
    (exDep_wf (num1_wf (by unfold IsDig; decide) (by decide)) (name1_wf (by decide) (by decide) (by decide))) ⟨by decide, by decide⟩

/-- The same, with the exception. -/
example : fromJsonDep {} (fun _ => .obj [] false) 9 exDepMs false (JVal.obj [] (exDepMems false 0x37 (.str asc! "a"))).text
    = .err .missingMemberNameOrEndOfClass := by decide +kernel

/-! ## C89 -/

/-- **C89, partial.**  `struct S { Int n; vector<E> v; }` with `json_sized_array<"v", E, json_number<"n", Int>>`: if the size stands in front of the
array then all the elements are read, in order, and the container is constructed with the size; other members of the object do not
matter.  Missing: the array in front of the size, see `C89_false_in_front_of_size`; and names of sizes that are paths, see
`C89_false_name_is_path`. -/
theorem C89_sized_array_partial (t : TCfg) (hck : t.cfg.checked = true) (Δ : Env) (henv : EnvOk Δ) (nn nv : Bytes) (hne : nn ≠ nv) (hstep : OneStep nn)
    (ity elem : Ty) (ex : Bool) (w : Bytes) (jm : JMems) (dn d : JVal) (n : Int) (vs : List Val)
    (hn : ∀ x ∈ jm.names, Usable t [nn, nv] x) (h1 : jm.names.count nn ≤ 1) (h2 : jm.names.count nv ≤ 1)
    (hex : (ex || t.exactAll) = true → ∀ x ∈ jm.names, x = nn ∨ x = nv)
    (hgn : jm.get? nn = some dn) (hnn : dn ≠ .null) (hrn : Reads Δ (Usable t) t.exactAll ity dn (.int n))
    (hgv : jm.get? nv = some d) (hrv : Reads Δ (Usable t) t.exactAll (.arr elem) d (.arr vs)) (hb : jm.Before nn nv)
    (hw : (JVal.obj w jm).WF) (hf : (JVal.obj w jm).Fits) :
    ∃ f0, ∀ f, f0 ≤ f →
      fromJsonDep t Δ f [{ name := nn, ty := .plain ity }, { name := nv, ty := .sized ⟨nn, ity⟩ elem }] ex (JVal.obj w jm).text
        = .ok (.cls [.int n, .cls [.int (n % 2 ^ 64), .arr vs]]) := by
  refine C88_dependent_members_partial t hck Δ henv _ (by simpa using hne) ex w jm _ ⟨hn, ?_, ?_, ?_⟩ ?_ hw hf
  · intro m hm
    simp only [List.mem_cons, List.not_mem_nil, or_false] at hm
    rcases hm with rfl | rfl
    · exact h1
    · exact h2
  · intro he x hx
    rcases hex he x hx with rfl | rfl <;> simp
  · have hd : d ≠ .null := by rintro rfl; cases hrv
    exact .found (m := { name := nn, ty := .plain ity }) (v := .int n) hgn hnn (.plain hrn)
      (.found (m := { name := nv, ty := .sized ⟨nn, ity⟩ elem }) (v := .cls [.int (n % 2 ^ 64), .arr vs]) hgv hd (.sized hgn hrn hrv) .nil)
  · intro p m v hm hv _
    match p with
    | 0 => cases hm; trivial
    | 1 => cases hm; exact ⟨hstep, Or.inr hb⟩
    | p + 2 => cases hm

/-- The members of `S`, with `int` elements. -/
def exSzMs : List DMember :=
  [{ name := asc! "n", ty := .plain (.int exI32 true) }, { name := asc! "v", ty := .sized ⟨asc! "n", .int exI32 true⟩ (.int exI32 true) }]

/-- Non-vacuity: `{"n":7,"v":[1]}`.  The size is 7 although there is one element. -/
example : ∃ f0, ∀ f, f0 ≤ f → fromJsonDep {} (fun _ => .obj [] false) f exSzMs false
    (JVal.obj [] (.cons [] asc! "n" [] [] (.num [0x37]) [] (.cons [] asc! "v" [] [] (.arr [] (.cons [] (.num [0x31]) [] .nil)) [] .nil))).text
      = .ok (.cls [.int 7, .cls [.int (7 % 2 ^ 64), .arr [.int 1]]]) := by
  refine C89_sized_array_partial {} rfl _ exDep_ok asc! "n" asc! "v" (by decide) (by unfold OneStep; decide) _ _ false [] _ (.num [0x37])
    (.arr [] (.cons [] (.num [0x31]) [] .nil)) 7 _ ?_ (by decide) (by decide) (by simp) (by simp [JMems_get?_cons]) (by simp)
    (.int (by decide) (by decide) num7_numeral) (by simp [JMems_get?_cons]) (.arr (by simp) (.cons (.int (by decide) (by decide) exOne_numeral) .nil))
    (by unfold JMems.Before; decide) ?_ ⟨by decide, by decide⟩
  · intro x hx
    simp [JMems.names, JMems.toList] at hx
    rcases hx with rfl | rfl <;> exact usable_own (by simp) (Or.inl (by unfold PlainName; decide))
  · exact ⟨Or.inl ws_nil, ws_nil, name1_wf (by decide) (by decide) (by decide), ws_nil, ws_nil, num1_wf (by unfold IsDig; decide) (by decide), ws_nil,
      ws_nil, name1_wf (by decide) (by decide) (by decide), ws_nil, ws_nil,
      ⟨Or.inl ws_nil, ws_nil, num1_wf (by unfold IsDig; decide) (by decide), ws_nil, trivial⟩, ws_nil, trivial⟩

/-- C89 is false of the code for an array that stands in front of its size: the range in which the size is looked for ends with the
array.  `{"v":[1,2],"n":2}` is rejected, `{"n":2,"v":[1,2]}` is not. -/
theorem C89_false_in_front_of_size :
    fromJsonDep {} (fun _ => .obj [] false) 9 exSzMs false asc! "{\"v\":[1,2],\"n\":2}" = .err .tagMemberNotFound ∧
    fromJsonDep {} (fun _ => .obj [] false) 9 exSzMs false asc! "{\"n\":2,\"v\":[1,2]}" = .ok (.cls [.int 2, .cls [.int 2, .arr [.int 1, .int 2]]]) :=
  ⟨by decide +kernel, by decide +kernel⟩

/-- C89 is false of the code for a size whose name has a dot: it is looked for as a path, and so the size of another object is taken.
`{"a.b":2,"v":[1],"a":{"b":5}}` with the size `a.b` gives the size 5. -/
theorem C89_false_name_is_path :
    fromJsonDep {} (fun _ => .obj [] false) 9 [{ name := asc! "a.b", ty := .plain (.int exI32 true) },
        { name := asc! "v", ty := .sized ⟨asc! "a.b", .int exI32 true⟩ (.int exI32 true) }] false asc! "{\"a.b\":2,\"v\":[1],\"a\":{\"b\":5}}"
      = .ok (.cls [.int 2, .cls [.int 5, .arr [.int 1]]]) := by decide +kernel

/-- C89, observation: a negative size becomes a huge one. -/
theorem C89_negative_size :
    fromJsonDep {} (fun _ => .obj [] false) 9 exSzMs false asc! "{\"n\":-1,\"v\":[1]}"
      = .ok (.cls [.int (-1), .cls [.int 18446744073709551615, .arr [.int 1]]]) := by decide +kernel

/-! ## C90 -/

/-- **C90, partial.**  `struct K { map<Key, Value> m; }` with `json_key_value_array`: an array whose elements are objects with a key and a value
(in whichever order, with other members or without) gives all the pairs, in order.  Missing: an empty array with whitespace between its
brackets, see `C90_false_space_in_empty_array`. -/
theorem C90_pairs_partial (t : TCfg) (hck : t.cfg.checked = true) (Δ : Env) (henv : EnvOk Δ) (i : Nat) (key val : Member) (ke : Bool)
    (hi : Δ i = .obj [key, val] ke) (nv : Bytes) (ex : Bool) (w w' : Bytes) (jm : JMems) (es : JElems) (vs : List Val)
    (hn : ∀ x ∈ jm.names, Usable t [nv] x) (h1 : jm.names.count nv ≤ 1) (hex : (ex || t.exactAll) = true → ∀ x ∈ jm.names, x = nv)
    (hg : jm.get? nv = some (.arr w' es)) (hr : ReadsElems Δ (Usable t) t.exactAll (.ref i) es vs) (he : es = .nil → w' = [])
    (hw : (JVal.obj w jm).WF) (hf : (JVal.obj w jm).Fits) :
    ∃ f0, ∀ f, f0 ≤ f → fromJsonDep t Δ f [{ name := nv, ty := .pairs i }] ex (JVal.obj w jm).text = .ok (.cls [.arr vs]) := by
  refine C88_dependent_members_partial t hck Δ henv _ (by simp) ex w jm _ ⟨hn, by simpa using h1, ?_, ?_⟩ ?_ hw hf
  · intro h x hx
    exact ⟨_, List.mem_singleton_self _, (hex h x hx).symm⟩
  · exact .found (m := { name := nv, ty := .pairs i }) (v := .arr vs) hg (by simp) (.pairs hi (.arr (fun h => he h ▸ ws_nil) hr)) .nil
  · intro p m v hm hv _
    match p with
    | 0 =>
      cases hm
      intro w'' h
      rw [hg] at h
      simp only [Option.some.injEq, JVal.arr.injEq] at h
      rw [← h.1]
      exact he h.2
    | p + 1 => cases hm

/-- `json_class_t` of an array of pairs of a string and an `int`. -/
def exKvEnv : Env := fun _ => .obj [⟨asc! "k", .str true⟩, ⟨asc! "v", .int exI32 true⟩] false

theorem exKv_ok : EnvOk exKvEnv := .classes (by intro i ms ex h; cases h; simp) (by intro i alts h; cases h)

/-- Non-vacuity: `{"m":[{"v":7,"k":"a"}]}`, the value in front of the key. -/
example : ∃ f0, ∀ f, f0 ≤ f → fromJsonDep {} exKvEnv f [{ name := asc! "m", ty := .pairs 0 }] false
    (JVal.obj [] (.cons [] asc! "m" [] [] (.arr [] (.cons [] (.obj [] (.cons [] asc! "v" [] [] (.num [0x37]) []
      (.cons [] asc! "k" [] [] (.str asc! "a") [] .nil))) [] .nil)) [] .nil)).text
      = .ok (.cls [.arr [.cls [.str asc! "a", .int 7]]]) := by
  have hs : IsStrBody asc! "a" := name1_wf (by decide) (by decide) (by decide)
  have h7 : (JVal.num [0x37]).WF := num1_wf (by unfold IsDig; decide) (by decide)
  refine C90_pairs_partial {} rfl exKvEnv exKv_ok 0 _ _ false rfl asc! "m" false [] [] _
    (.cons [] (.obj [] (.cons [] asc! "v" [] [] (.num [0x37]) [] (.cons [] asc! "k" [] [] (.str asc! "a") [] .nil))) [] .nil) _ ?_ (by decide) (by simp)
    (by simp [JMems_get?_cons]) (.cons (.obj rfl ?_ ?_ (by simp) ?_) .nil) (by simp) ?_ ⟨by decide, by decide⟩
  · intro x hx
    simp [JMems.names, JMems.toList] at hx
    subst hx
    exact usable_own (by simp) (Or.inl (by unfold PlainName; decide))
  · intro x hx
    simp [JMems.names, JMems.toList] at hx
    rcases hx with rfl | rfl <;> exact usable_own (by simp) (Or.inl (by unfold PlainName; decide))
  · intro m hm
    simp at hm
    rcases hm with rfl | rfl <;> decide
  · exact .found (d := .str asc! "a") (by simp [JMems_get?_cons]) (.str (.plain (by decide) (by decide) (by decide) .nil))
      (.found (d := .num [0x37]) (by simp [JMems_get?_cons]) (.int (by decide) (by decide) num7_numeral) .nil)
  · exact ⟨Or.inl ws_nil, ws_nil, name1_wf (by decide) (by decide) (by decide), ws_nil, ws_nil, ⟨Or.inl ws_nil, ws_nil,
      ⟨Or.inl ws_nil, ws_nil, name1_wf (by decide) (by decide) (by decide), ws_nil, ws_nil, h7, ws_nil,
        ws_nil, name1_wf (by decide) (by decide) (by decide), ws_nil, ws_nil, hs, ws_nil, trivial⟩, ws_nil, trivial⟩, ws_nil, trivial⟩

/-- C90 is false of the code for an empty array with whitespace between its brackets, and for a document that ends with the opening
bracket: no whitespace is skipped and the end is not looked at, so the first is rejected and for the second a character behind the end
is read.  `{"m":[]}` is accepted. -/
theorem C90_false_space_in_empty_array :
    fromJsonDep {} exKvEnv 9 [{ name := asc! "m", ty := .pairs 0 }] false asc! "{\"m\":[ ]}" = .err .invalidClassStart ∧
    fromJsonDep {} exKvEnv 9 [{ name := asc! "m", ty := .pairs 0 }] false asc! "{\"m\":[" = .ub ∧
    fromJsonDep {} exKvEnv 9 [{ name := asc! "m", ty := .pairs 0 }] false asc! "{\"m\":[]}" = .ok (.cls [.arr []]) :=
  ⟨by decide +kernel, by decide +kernel, by decide +kernel⟩

end Verif
