import Verif.Props.Write
import Verif.Props.ZeroTerm
import Verif.Spec.Ascii

/-!
# Properties C75–C77: variants

`json_variant` (`Shape.var`) is told apart by the kind of the JSON value, `json_intrusive_variant` (`Shape.ivar`) by a member of the
object.  Every theorem about success holds for a stack that is deep enough (`∃ f0, ∀ f ≥ f0`).
-/

namespace Verif

open Spec

/-! ### Concrete mappings

* `0`: `variant<int, string, vector<V>, A>`, where `V` is this variant,
* `1`: `struct A { V a; }`,
* `2`: a variant of `3` and `4`, told apart by the member `t`,
* `3`: `struct X { int t; int x; }`,
* `4`: `struct Y { int t; string y; }`. -/

/-- The switcher of the sample variant: the tag is the number of the alternative. -/
def exSw : Val → Nat
  | .int i => i.toNat
  | _ => 7

def exTag : Member := ⟨asc! "t", .int exI32 true⟩

def exVEnv : Env
  | 0 => .var [.int exI32 true, .str true, .arr (.ref 0), .ref 1]
  | 1 => .obj [⟨asc! "a", .ref 0⟩] false
  | 2 => .ivar exTag exSw [.ref 3, .ref 4]
  | 3 => .obj [exTag, ⟨asc! "x", .int exI32 true⟩] false
  | _ => .obj [⟨asc! "y", .str true⟩, exTag] false

theorem exVEnv_ok : EnvOk exVEnv where
  nodup i ms ex h := by
    match i with
    | 0 => cases h
    | 1 => cases h; decide
    | 2 => cases h
    | 3 => cases h; decide
    | _ + 4 => cases h; decide
  kinds i alts h := by
    match i with
    | 0 => cases h; decide
    | 1 => cases h
    | 2 => cases h
    | 3 => cases h
    | _ + 4 => cases h
  kind i alts h ty hty := by
    match i with
    | 0 =>
      cases h
      simp only [List.mem_cons, List.not_mem_nil, or_false] at hty
      rcases hty with rfl | rfl | rfl | rfl
      · exact ⟨rfl, fun j ms ex h => by cases h⟩
      · exact ⟨rfl, fun j ms ex h => by cases h⟩
      · exact ⟨rfl, fun j ms ex h => by cases h⟩
      · exact ⟨rfl, fun j ms ex h => by cases h; simp [exVEnv]⟩
    | 1 => cases h
    | 2 => cases h
    | 3 => cases h
    | _ + 4 => cases h

/-! ## C75 -/

/-- **C75, first half.**  A document that is a value of one of the alternatives of a variant (which are stored as different kinds of
JSON values) is read as that alternative, with that value. -/
theorem C75_variant_by_kind_partial (t : TCfg) (hck : t.cfg.checked = true) (Δ : Env) (henv : EnvOk Δ) {i k : Nat} {alts : List Ty}
    (hi : Δ i = .var alts) {ty : Ty} (hty : alts[k]? = some ty) (d : JVal) (v : Val)
    (hr : Reads Δ (Usable t) t.exactAll ty d v) (hw : d.WF) (hf : d.Fits) (he : EndsWell d v) :
    ∃ f0, ∀ f, f0 ≤ f → fromJson t Δ f (.ref i) d.text = .ok (.alt k v) := by
  refine C50_from_json_reads t hck Δ henv _ d _ (.var hi hty ?_ hr) hw hf he
  rintro rfl
  obtain ⟨h, -⟩ := henv.kind i alts hi ty (List.mem_of_getElem? hty)
  have := (reads_null hr rfl).1
  cases ty <;> simp [Ty.kind, Ty.isOpt] at h this

/-- `["a",{"a":7}]`. -/
def exVDoc : JVal :=
  .arr [] (.cons [] (.str asc! "a") [] (.cons [] (.obj [] (.cons [] asc! "a" [] [] (.num asc! "7") [] .nil)) [] .nil))

theorem num7_wf : (JVal.num asc! "7").WF := num1_wf (by unfold IsDig; decide) (by decide)

theorem num7_numeral : IsNumeral asc! "7" 7 :=
  ⟨Or.inr ⟨⟨by simp, by simp [IsDig, UInt8.le_iff_toNat_le]⟩, by simp⟩, by decide⟩

theorem exVDoc_wf : exVDoc.WF :=
  ⟨Or.inl ws_nil, ws_nil, name1_wf (by decide) (by decide) (by decide), ws_nil, ws_nil,
    ⟨Or.inl ws_nil, ws_nil, name1_wf (by decide) (by decide) (by decide), ws_nil, ws_nil, num7_wf, ws_nil, trivial⟩, ws_nil, trivial⟩

theorem exV7_reads : Reads exVEnv (Usable {}) false (.ref 0) (.num asc! "7") (.alt 0 (.int 7)) :=
  .var (ty := .int exI32 true) rfl rfl (by simp) (.int (by decide) (by decide) num7_numeral)

theorem exVDoc_reads : Reads exVEnv (Usable {}) false (.arr (.ref 0)) exVDoc
    (.arr [.alt 1 (.str asc! "a"), .alt 3 (.cls [.alt 0 (.int 7)])]) := by
  refine .arr (fun h => by cases h) (.cons ?_ (.cons ?_ .nil))
  · exact .var (ty := .str true) rfl rfl (by simp) (.str (.plain (by decide) (by decide) (by decide) .nil))
  · refine .var (ty := .ref 1) rfl rfl (by simp) (.obj (ms := [⟨asc! "a", .ref 0⟩]) (ex := false) rfl ?_ (by decide) (by simp) ?_)
    · intro n hn
      simp only [JMems.names, JMems.toList, List.map_cons, List.map_nil, List.mem_singleton] at hn
      subst hn
      exact usable_own (by simp) (Or.inl (by unfold PlainName; decide))
    · exact .found (d := .num asc! "7") rfl exV7_reads .nil

/-- Non-vacuity: the document is the third alternative, its elements are the second and the fourth. -/
example : ∃ f0, ∀ f, f0 ≤ f → fromJson {} exVEnv f (.ref 0) exVDoc.text
    = .ok (.alt 2 (.arr [.alt 1 (.str asc! "a"), .alt 3 (.cls [.alt 0 (.int 7)])])) :=
  C75_variant_by_kind_partial {} rfl exVEnv exVEnv_ok (ty := .arr (.ref 0)) rfl rfl exVDoc _ exVDoc_reads exVDoc_wf
    ⟨by decide, by decide⟩ (endsWell_of rfl)

/-- The same for a `std::string`. -/
theorem C75_std_string_partial (t : TCfg) (hck : t.cfg.checked = true) (Δ : Env) (henv : EnvOk Δ) {i k : Nat} {alts : List Ty}
    (hi : Δ i = .var alts) {ty : Ty} (hty : alts[k]? = some ty) (d : JVal) (v : Val)
    (hr : Reads Δ (Usable t) t.exactAll ty d v) (hw : d.WF) (hf : d.Fits)
    (hb : v.bareLit = true → d.closed = true) :
    ∃ f0, ∀ f, f0 ≤ f → fromJsonZ t Δ f (.ref i) d.text = .ok (.alt k v) := by
  refine C62_std_string_reads t hck Δ henv _ d _ (.var hi hty ?_ hr) hw hf hb
  rintro rfl
  obtain ⟨h, -⟩ := henv.kind i alts hi ty (List.mem_of_getElem? hty)
  have := (reads_null hr rfl).1
  cases ty <;> simp [Ty.kind, Ty.isOpt] at h this

/-- Non-vacuity. -/
example : ∃ f0, ∀ f, f0 ≤ f → fromJsonZ {} exVEnv f (.ref 0) exVDoc.text
    = .ok (.alt 2 (.arr [.alt 1 (.str asc! "a"), .alt 3 (.cls [.alt 0 (.int 7)])])) :=
  C75_std_string_partial {} rfl exVEnv exVEnv_ok (ty := .arr (.ref 0)) rfl rfl exVDoc _ exVDoc_reads exVDoc_wf ⟨by decide, by decide⟩
    (fun _ => rfl)

theorem fromJson_var {t : TCfg} {Δ : Env} {i : Nat} {alts : List Ty} (hi : Δ i = .var alts) {d : JVal} (hw : d.WF) (f : Nat)
    {c : UInt8} {cs : Bytes} (hc : d.text = c :: cs) {e : Err} (he : altOfChar t.cfg Δ alts c = .err e) :
    fromJson t Δ (f + 1) (.ref i) d.text = .err e := by
  have hne := text_ne_empty hw []
  rw [List.append_nil] at hne
  have hdr : derefEnd t.cfg d.text = .ok c := by rw [hc]; rfl
  unfold fromJson
  simp only [hne, Bool.not_false, ensure_true, Res.ok_bind, if_neg (text_last hw), parseU, hi, hdr, he, Res.err_bind]

/-- **C75, second half.**  A document of a kind that no alternative is stored as is rejected, whatever is in it. -/
theorem C75_no_alternative (t : TCfg) (Δ : Env) (henv : EnvOk Δ) {i : Nat} {alts : List Ty}
    (hi : Δ i = .var alts) (d : JVal) (hw : d.WF) (hn : d ≠ .null) (hk : ∀ ty ∈ alts, ty.kind Δ ≠ some d.jkind) (f : Nat) :
    fromJson t Δ (f + 1) (.ref i) d.text = .err .unexpectedJSONVariantType := by
  obtain ⟨c, cs, b, h1, h2, h3⟩ := baseOfChar_text hw hn
  refine fromJson_var hi hw f h1 ?_
  have hfind : ∀ (l : List Ty) (n : Nat), (∀ ty ∈ l, ty ∈ alts) → findAlt Δ b n l = none := by
    intro l
    induction l with
    | nil => intro n _; rfl
    | cons ty l ih =>
      intro n hl
      rw [findAlt, if_neg, ih (n + 1) fun x hx => hl x (by simp [hx])]
      intro hu
      have hm := hl ty (by simp)
      obtain ⟨hs, ho⟩ := henv.kind i alts hi ty hm
      obtain ⟨κ, hκ⟩ := Option.isSome_iff_exists.1 hs
      rw [underlying_eq hκ ho, ← h3] at hu
      exact hk ty hm (by rw [hκ, baseOf_inj hu])
  simp only [altOfChar, h2, altOfBase, hfind alts 0 fun _ h => h]

/-- Non-vacuity: `true` for the sample variant. -/
example : fromJson {} exVEnv 9 (.ref 0) JVal.tru.text = .err .unexpectedJSONVariantType :=
  C75_no_alternative {} exVEnv exVEnv_ok rfl .tru trivial (by simp) (by decide) 8

/-- `null` is never a variant. -/
theorem C75_null (t : TCfg) (hck : t.cfg.checked = true) (Δ : Env) {i : Nat} {alts : List Ty} (hi : Δ i = .var alts) (f : Nat) :
    fromJson t Δ (f + 1) (.ref i) JVal.null.text = .err .invalidStartOfValue :=
  fromJson_var hi (d := .null) trivial f (c := chN) rfl (by
    have h : baseOfChar chN = none := by decide
    simp [altOfChar, h, hck])

/-- Whatever is accepted as a variant, document or not, is accepted as the alternative that the variant holds, with that value. -/
theorem C75_only_alternatives (t : TCfg) (Δ : Env) {i : Nat} {alts : List Ty} (hi : Δ i = .var alts) (bs : Bytes) (f : Nat) (v : Val)
    (h : fromJson t Δ f (.ref i) bs = .ok v) :
    ∃ (k : Nat) (ty : Ty) (v' : Val), v = .alt k v' ∧ alts[k]? = some ty ∧ fromJson t Δ (f - 1) ty bs = .ok v' := by
  have hfind : ∀ (l : List Ty) (b : BaseTy) (n : Nat) (a : Nat × Ty), findAlt Δ b n l = some a → ∃ j, a.1 = n + j ∧ l[j]? = some a.2 := by
    intro l b
    induction l with
    | nil => intro n a h; cases h
    | cons ty l ih =>
      intro n a h
      rw [findAlt] at h
      split at h
      · cases h; exact ⟨0, rfl, rfl⟩
      · obtain ⟨j, h1, h2⟩ := ih _ _ h
        exact ⟨j + 1, by omega, by simpa using h2⟩
  have halt : ∀ (c : UInt8) (a : Nat × Ty), altOfChar t.cfg Δ alts c = .ok a → alts[a.1]? = some a.2 := by
    intro c a h
    unfold altOfChar at h
    split at h
    · unfold altOfBase at h
      split at h
      · cases h
        obtain ⟨j, h1, h2⟩ := hfind _ _ _ _ ‹_›
        rwa [h1, Nat.zero_add]
      · cases h
    · split at h <;> cases h
  unfold fromJson at h ⊢
  rw [Res.bind_eq_ok] at h
  obtain ⟨u, hu, h⟩ := h
  simp only [hu, Res.ok_bind]
  rw [Res.bind_eq_ok] at h
  obtain ⟨⟨x, r⟩, hx, h⟩ := h
  cases f with
  | zero => cases hx
  | succ f =>
    simp only [parseU, hi] at hx
    rw [Res.bind_eq_ok] at hx
    obtain ⟨c, -, hx⟩ := hx
    rw [Res.bind_eq_ok] at hx
    obtain ⟨a, ha, hx⟩ := hx
    rw [Res.bind_eq_ok] at hx
    obtain ⟨⟨y, r'⟩, hy, hx⟩ := hx
    cases hx
    rw [Nat.add_sub_cancel]
    simp only at h
    split at h
    · rw [Res.bind_eq_ok] at h
      obtain ⟨r'', h1, h⟩ := h
      rw [Res.bind_eq_ok] at h
      obtain ⟨_, h2, h⟩ := h
      cases h
      refine ⟨a.1, a.2, y, rfl, halt c a ha, ?_⟩
      simp only [hy, Res.ok_bind, h1, h2]
      simp [*]
    · cases h
      refine ⟨a.1, a.2, y, rfl, halt c a ha, ?_⟩
      simp only [hy, Res.ok_bind]
      simp [*]

/-- Non-vacuity: `"b" x`, which is no document, is accepted as the second alternative. -/
example : ∃ (k : Nat) (ty : Ty) (v' : Val), Val.alt 1 (.str asc! "b") = .alt k v' ∧
    [Ty.int exI32 true, .str true, .arr (.ref 0), .ref 1][k]? = some ty ∧ fromJson {} exVEnv 8 ty asc! "\"b\" x" = .ok v' :=
  C75_only_alternatives {} exVEnv (i := 0) rfl asc! "\"b\" x" 9 (.alt 1 (.str asc! "b")) (by decide +kernel)

/-- A variant of `int` and a class that is stored in an array, `struct P { int a; int b; }`. -/
def exOrdEnv : Env
  | 0 => .var [.int exI32 true, .ref 1]
  | _ => .ord [(none, .int exI32 true), (none, .int exI32 true)] false

/-- C75 is false of the code for classes stored in arrays (`json_tuple_member_list`): the array `[1,2]` is a `P`, but no variant of
`int` and `P`.  The library takes every class for an object. -/
theorem C75_false_for_array_classes :
    fromJson {} exOrdEnv 9 (.ref 1) asc! "[1,2]" = .ok (.cls [.int 1, .int 2]) ∧
    fromJson {} exOrdEnv 9 (.ref 0) asc! "[1,2]" = .err .unexpectedJSONVariantType ∧
    fromJson {} exOrdEnv 9 (.ref 0) asc! "{}" = .err .invalidArrayStart := by decide +kernel

/-- A variant of `bool` and `optional<int>`. -/
def exOptEnv : Env := fun _ => .var [.bool, .opt (.int exI32 true)]

/-- Nor does C75 hold for nullable alternatives: `null` is an empty `optional<int>`, but no variant of `bool` and `optional<int>`. -/
theorem C75_false_for_null :
    fromJson {} exOptEnv 9 (.opt (.int exI32 true)) asc! "null" = .ok .none ∧
    fromJson {} exOptEnv 9 (.ref 0) asc! "null" = .err .invalidStartOfValue := by decide +kernel

/-- A variant of `bool` and a custom type that is stored as a literal. -/
def exCustomEnv : Env := fun _ => .var [.bool, .txt (.custom .lit)]

/-- Nor does it hold for custom types that are stored as literals: `12` is such a custom type, but no variant of `bool` and it.  The
library takes every custom type for a string. -/
theorem C75_false_for_custom_literals :
    fromJson {} exCustomEnv 9 (.txt (.custom .lit)) asc! "12" = .ok (.txt asc! "12") ∧
    fromJson {} exCustomEnv 9 (.ref 0) asc! "12" = .err .unexpectedJSONVariantType ∧
    fromJson {} exCustomEnv 9 (.ref 0) asc! "\"a\"" = .err .invalidStartOfValue := by decide +kernel

theorem findAlt_raw (Δ : Env) (b : BaseTy) {alts : List Ty} (hr : ∀ ty ∈ alts, ty = .txt .raw) (n : Nat) : findAlt Δ b n alts = none := by
  induction alts generalizing n with
  | nil => rfl
  | cons ty ts ih =>
    have h := hr ty (List.mem_cons_self ..)
    subst h
    rw [findAlt, if_neg (by simp [underlying, TxtKind.underlying])]
    exact ih (fun x hx => hr x (List.mem_cons_of_mem _ hx)) _

/-- Nor for raw JSON (`json_raw`), which takes every JSON value: as an alternative it takes none. -/
theorem C75_false_for_raw (t : TCfg) (Δ : Env) {i : Nat} {alts : List Ty} (hi : Δ i = .var alts) (hr : ∀ ty ∈ alts, ty = .txt .raw)
    (f : Nat) (bs : Bytes) (v : Val) : fromJson t Δ f (.ref i) bs ≠ .ok v := by
  intro h
  unfold fromJson at h
  obtain ⟨_, _, h⟩ := Res.bind_eq_ok.1 h
  obtain ⟨x, hx, _⟩ := Res.bind_eq_ok.1 h
  cases f with
  | zero => rw [parseU] at hx; cases hx
  | succ f =>
    rw [parseU] at hx
    simp only [hi] at hx
    obtain ⟨c, _, hx⟩ := Res.bind_eq_ok.1 hx
    obtain ⟨a, ha, _⟩ := Res.bind_eq_ok.1 hx
    unfold altOfChar altOfBase at ha
    split at ha
    · rw [findAlt_raw Δ _ hr] at ha; cases ha
    · split at ha <;> cases ha

example : fromJson {} (fun _ => .var [.txt .raw]) 9 (.txt .raw) asc! "\"b\"" = .ok (.txt asc! "\"b\"") ∧
    fromJson {} (fun _ => .var [.txt .raw]) 9 (.ref 0) asc! "\"b\"" = .err .unexpectedJSONVariantType := by decide +kernel

/-- Whitespace in front of the document is no obstacle to the alternative, but it is to the variant. -/
theorem C75_false_for_leading_whitespace :
    fromJson {} exVEnv 9 (.ref 1) asc! " {\"a\":7}" = .ok (.cls [.alt 0 (.int 7)]) ∧
    fromJson {} exVEnv 9 (.ref 0) asc! " {\"a\":7}" = .err .invalidStartOfValue := by decide +kernel

/-! ## C76 -/

/-- **C76, first half.**  An object with one member of the name of the tag is read as the alternative that the switcher gives for the
value of that member, wherever in the object it stands. -/
theorem C76_variant_by_tag_partial (t : TCfg) (hck : t.cfg.checked = true) (Δ : Env) (henv : EnvOk Δ) {i : Nat} {tag : Member}
    {sw : Val → Nat} {alts : List Ty} (hi : Δ i = .ivar tag sw alts) (w : Bytes) (jm : JMems)
    (hn : ∀ n ∈ jm.names, Usable t [tag.name] n) (honce : jm.names.count tag.name ≤ 1)
    (hex : t.exactAll = true → ∀ n ∈ jm.names, n = tag.name)
    {dx : JVal} {x : Val} (hg : jm.get? tag.name = some dx) (hx : Reads Δ (Usable t) t.exactAll tag.ty dx x)
    {ty : Ty} (hty : alts[sw x]? = some ty) (v : Val) (hr : Reads Δ (Usable t) t.exactAll ty (.obj w jm) v)
    (hw : (JVal.obj w jm).WF) (hf : (JVal.obj w jm).Fits) :
    ∃ f0, ∀ f, f0 ≤ f → fromJson t Δ f (.ref i) (JVal.obj w jm).text = .ok (.alt (sw x) v) :=
  C50_from_json_reads t hck Δ henv _ _ _ (.ivar hi hn honce hex (.found hg hx .nil) hty hr) hw hf (hr.endsWell (by simp) (by simp [JVal.IsLit]))

/-- The same for a `std::string`. -/
theorem C76_std_string_partial (t : TCfg) (hck : t.cfg.checked = true) (Δ : Env) (henv : EnvOk Δ) {i : Nat} {tag : Member}
    {sw : Val → Nat} {alts : List Ty} (hi : Δ i = .ivar tag sw alts) (w : Bytes) (jm : JMems)
    (hn : ∀ n ∈ jm.names, Usable t [tag.name] n) (honce : jm.names.count tag.name ≤ 1)
    (hex : t.exactAll = true → ∀ n ∈ jm.names, n = tag.name)
    {dx : JVal} {x : Val} (hg : jm.get? tag.name = some dx) (hx : Reads Δ (Usable t) t.exactAll tag.ty dx x)
    {ty : Ty} (hty : alts[sw x]? = some ty) (v : Val) (hr : Reads Δ (Usable t) t.exactAll ty (.obj w jm) v)
    (hw : (JVal.obj w jm).WF) (hf : (JVal.obj w jm).Fits) :
    ∃ f0, ∀ f, f0 ≤ f → fromJsonZ t Δ f (.ref i) (JVal.obj w jm).text = .ok (.alt (sw x) v) :=
  C62_std_string_reads t hck Δ henv _ _ _ (.ivar hi hn honce hex (.found hg hx .nil) hty hr) hw hf (fun _ => rfl)

/-- **C76, second half.**  If the switcher gives no alternative for the tag the object is rejected, whatever else is in it. -/
theorem C76_unknown_tag (t : TCfg) (hck : t.cfg.checked = true) (Δ : Env) (henv : EnvOk Δ) {i : Nat} {tag : Member}
    {sw : Val → Nat} {alts : List Ty} (hi : Δ i = .ivar tag sw alts) (w : Bytes) (jm : JMems)
    (hn : ∀ n ∈ jm.names, Usable t [tag.name] n) (honce : jm.names.count tag.name ≤ 1)
    (hex : t.exactAll = true → ∀ n ∈ jm.names, n = tag.name)
    {dx : JVal} {x : Val} (hg : jm.get? tag.name = some dx) (hx : Reads Δ (Usable t) t.exactAll tag.ty dx x)
    (hty : alts.length ≤ sw x) (hw : (JVal.obj w jm).WF) (hf : (JVal.obj w jm).Fits) :
    ∃ f0, ∀ f, f0 ≤ f → fromJson t Δ f (.ref i) (JVal.obj w jm).text = .err .missingMemberNameOrEndOfClass := by
  have hd := dok_of hw hf
  obtain ⟨f0, hf0⟩ := members_sem hck henv usable_nameOk rfl (.found hg hx .nil) hd.mems
  refine ⟨f0 + 1, fun f hf => ?_⟩
  obtain ⟨f, rfl⟩ : ∃ g, f = g + 1 := ⟨f - 1, by omega⟩
  have hs := parseObj_sem (t := t) (exact := t.exactAll) (ms := [tag]) (by simp) hd.wf hd.mems.depth hd.size
    (fun n h => usable_nameOk _ n (hn n h)) (by simpa using honce) (fun he n h => ⟨tag, by simp, (hex he n h).symm⟩) (hf0 f (by omega))
  obtain ⟨r', hr', -⟩ := hs [] (fun _ => ⟨afterValue_nil, fun _ => endsWell_of rfl⟩) (by simp [hck])
  have hne := text_ne_empty hd.wf []
  rw [List.append_nil] at hr' hne
  have halt : altOfTag t.cfg sw alts (.cls [x]) = .err .missingMemberNameOrEndOfClass := by
    simp only [altOfTag, List.getElem?_eq_none hty, hck, if_true]
  unfold fromJson
  simp only [hne, Bool.not_false, ensure_true, Res.ok_bind, if_neg (text_last hd.wf), parseU, hi, hck, assertWeak_checked, hr', halt,
    Res.err_bind]

/-- An object without a tag is rejected, if the tag is not nullable. -/
theorem C76_no_tag (t : TCfg) (hck : t.cfg.checked = true) (Δ : Env) (henv : EnvOk Δ) {i : Nat} {tag : Member}
    {sw : Val → Nat} {alts : List Ty} (hi : Δ i = .ivar tag sw alts) (w : Bytes) (jm : JMems)
    (hn : ∀ n ∈ jm.names, Usable t [tag.name] n) (hex : t.exactAll = true → jm.names = [])
    (ho : tag.ty.isOpt = false) (hg : tag.name ∉ jm.names) (hw : (JVal.obj w jm).WF) (hf : (JVal.obj w jm).Fits) :
    ∃ f0, ∀ f, f0 ≤ f → fromJson t Δ f (.ref i) (JVal.obj w jm).text = .err .missingMember := by
  have hd := dok_of hw hf
  have hg' := JMems_get?_none.2 hg
  obtain ⟨f0, hf0⟩ := parseObj_missing hck henv usable_nameOk rfl (exact := t.exactAll) (ms := [tag]) (by simp) hd hn
    (fun m hm => by rw [List.mem_singleton.1 hm, List.count_eq_zero.2 hg]; omega) (fun he n h => by rw [hex he] at h; cases h)
    (fun m hm d h => by rw [List.mem_singleton.1 hm, hg'] at h; cases h) (List.mem_singleton.2 rfl) ho hg'
  refine ⟨f0 + 1, fun f hf => ?_⟩
  obtain ⟨f, rfl⟩ : ∃ g, f = g + 1 := ⟨f - 1, by omega⟩
  have hne := text_ne_empty hd.wf []
  rw [List.append_nil] at hne
  unfold fromJson
  simp only [hne, Bool.not_false, ensure_true, Res.ok_bind, if_neg (text_last hd.wf), parseU, hi, hck, assertWeak_checked,
    hf0 f (by omega), Res.err_bind]

/-- `{"y":"b","t":n}`, for a digit `n`. -/
def exTagMems (n : UInt8) : JMems := .cons [] asc! "y" [] [] (.str asc! "b") [] (.cons [] asc! "t" [] [] (.num [n]) [] .nil)

theorem exTag_wf {n : UInt8} (h : IsDig n) (h' : n ≠ 0x30) : (JVal.obj [] (exTagMems n)).WF :=
  ⟨Or.inl ws_nil, ws_nil, name1_wf (by decide) (by decide) (by decide), ws_nil, ws_nil, name1_wf (by decide) (by decide) (by decide),
    ws_nil, ws_nil, name1_wf (by decide) (by decide) (by decide), ws_nil, ws_nil, num1_wf h h', ws_nil, trivial⟩

theorem exTag_usable {n : UInt8} : ∀ x ∈ (exTagMems n).names, Usable {} [exTag.name] x := by
  intro x hx
  simp only [exTagMems, JMems.names, JMems.toList, List.map_cons, List.map_nil, List.mem_cons, List.not_mem_nil, or_false] at hx
  rcases hx with rfl | rfl
  · exact ⟨Or.inl (by unfold PlainName; decide), Or.inr (Or.inr (by decide +kernel))⟩
  · exact usable_own (by simp [exTag]) (Or.inl (by unfold PlainName; decide))

theorem exOne_numeral : IsNumeral [0x31] 1 := ⟨Or.inr ⟨⟨by simp, by simp [IsDig, UInt8.le_iff_toNat_le]⟩, by simp⟩, by decide⟩

theorem exTagDoc_reads : Reads exVEnv (Usable {}) false (.ref 4) (.obj [] (exTagMems 0x31)) (.cls [.str asc! "b", .int 1]) := by
  refine .obj (ms := [⟨asc! "y", .str true⟩, exTag]) (ex := false) rfl ?_ (by decide) (by simp) ?_
  · intro n hn
    simp only [exTagMems, JMems.names, JMems.toList, List.map_cons, List.map_nil, List.mem_cons, List.not_mem_nil, or_false] at hn
    rcases hn with rfl | rfl <;> exact usable_own (by simp [exTag]) (Or.inl (by unfold PlainName; decide))
  · exact .found (d := .str asc! "b") rfl (.str (.plain (by decide) (by decide) (by decide) .nil))
      (.found (d := .num [0x31]) rfl (.int (by decide) (by decide) exOne_numeral) .nil)

/-- Non-vacuity: `{"y":"b","t":1}` is the second alternative. -/
example : ∃ f0, ∀ f, f0 ≤ f → fromJson {} exVEnv f (.ref 2) (JVal.obj [] (exTagMems 0x31)).text
    = .ok (.alt 1 (.cls [.str asc! "b", .int 1])) :=
  C76_variant_by_tag_partial {} rfl exVEnv exVEnv_ok (i := 2) (sw := exSw) rfl [] _ exTag_usable (by decide) (by simp) (dx := .num [0x31]) (x := .int 1) rfl
    (.int (by decide) (by decide) exOne_numeral) rfl _ exTagDoc_reads (exTag_wf (by unfold IsDig; decide) (by decide)) ⟨by decide, by decide⟩

example : ∃ f0, ∀ f, f0 ≤ f → fromJsonZ {} exVEnv f (.ref 2) (JVal.obj [] (exTagMems 0x31)).text
    = .ok (.alt 1 (.cls [.str asc! "b", .int 1])) :=
  C76_std_string_partial {} rfl exVEnv exVEnv_ok (i := 2) (sw := exSw) rfl [] _ exTag_usable (by decide) (by simp) (dx := .num [0x31]) (x := .int 1) rfl
    (.int (by decide) (by decide) exOne_numeral) rfl _ exTagDoc_reads (exTag_wf (by unfold IsDig; decide) (by decide)) ⟨by decide, by decide⟩

/-- Non-vacuity: `{"y":"b","t":7}`. -/
example : ∃ f0, ∀ f, f0 ≤ f → fromJson {} exVEnv f (.ref 2) (JVal.obj [] (exTagMems 0x37)).text = .err .missingMemberNameOrEndOfClass :=
  C76_unknown_tag {} rfl exVEnv exVEnv_ok rfl [] _ exTag_usable (by decide) (by simp) (dx := .num asc! "7") (x := .int 7) rfl
    (.int (by decide) (by decide) num7_numeral) (by decide) (exTag_wf (by unfold IsDig; decide) (by decide)) ⟨by decide, by decide⟩

/-- Non-vacuity: `{"y":"b"}`. -/
example : ∃ f0, ∀ f, f0 ≤ f →
    fromJson {} exVEnv f (.ref 2) (JVal.obj [] (.cons [] asc! "y" [] [] (.str asc! "b") [] .nil)).text = .err .missingMember :=
  C76_no_tag {} rfl exVEnv exVEnv_ok rfl [] _
    (fun n hn => exTag_usable (n := 0x31) n (by
      simp only [exTagMems, JMems.names, JMems.toList, List.map_cons, List.map_nil, List.mem_cons, List.not_mem_nil, or_false] at hn ⊢
      exact Or.inl hn)) (by simp) rfl (by decide)
    ⟨Or.inl ws_nil, ws_nil, name1_wf (by decide) (by decide) (by decide), ws_nil, ws_nil, name1_wf (by decide) (by decide) (by decide),
      ws_nil, trivial⟩ ⟨by decide, by decide⟩

/-- C76 is false of the code with the option `UseExactMappingsByDefault`: the tag is read as a member of a class that has no other
members, so the other members of the object are errors.  `{"y":"b","t":1}` is a `Y` also with that option. -/
theorem C76_false_with_exact_mappings :
    fromJson { exactAll := true } exVEnv 9 (.ref 4) (JVal.obj [] (exTagMems 0x31)).text = .ok (.cls [.str asc! "b", .int 1]) ∧
    fromJson { exactAll := true } exVEnv 9 (.ref 2) (JVal.obj [] (exTagMems 0x31)).text = .err .unknownMember ∧
    fromJson {} exVEnv 9 (.ref 2) (JVal.obj [] (exTagMems 0x31)).text = .ok (.alt 1 (.cls [.str asc! "b", .int 1])) := by decide +kernel

/-! ## C77 -/

/-- **C77**, `json_variant`.  A variant is written as the value it holds, and what is written is read back as the same alternative
with the same value. -/
theorem C77_variant_round_trip_partial (w : WCfg) (t : TCfg) (hck : t.cfg.checked = true) (Δ : Env) (hΔ : Writable Δ)
    (hp : PlainNames t Δ) (hx : w.tc = true → NoExactOrdered t Δ) {i k : Nat} {alts : List Ty} (hi : Δ i = .var alts) {ty : Ty}
    (hty : alts[k]? = some ty) (v : Val) (hne : v ≠ .none) (hv : HasTy Δ ValidUtf8 (Seven w.only7bit) ty v) (hdep : v.depth < 2 ^ 32)
    (hb : v.bare = false) :
    ∃ out, toJson w Δ ty v = .ok out ∧ toJson w Δ (.ref i) (.alt k v) = .ok out ∧
      (out.length < 2 ^ 63 → ∃ f0, ∀ f, f0 ≤ f → fromJson t Δ f (.ref i) out = .ok (.alt k v)) := by
  have hv' : HasTy Δ ValidUtf8 (Seven w.only7bit) (.ref i) (.alt k v) := by
    simp only [HasTy, hi]
    exact ⟨hne, ty, hty, hv⟩
  obtain ⟨out, h1, h2⟩ := C18_round_trip w t hck Δ hΔ hp hx _ _ hv' hdep hb
  refine ⟨out, ?_, h1, h2⟩
  rw [← h1]
  simp only [toJson, writeVal, altTys, hi, hty]

/-- **C77**, `json_intrusive_variant`, for values with the tag of the alternative that they are. -/
theorem C77_tagged_round_trip_partial (w : WCfg) (t : TCfg) (hck : t.cfg.checked = true) (Δ : Env) (hΔ : Writable Δ)
    (hp : PlainNames t Δ) (hx : w.tc = true → NoExactOrdered t Δ) {i k : Nat} {tag : Member} {sw : Val → Nat} {alts : List Ty}
    (hi : Δ i = .ivar tag sw alts) {j p : Nat} {ms : List Member} {ex : Bool} (hty : alts[k]? = some (.ref j)) (hj : Δ j = .obj ms ex)
    (hm : ms[p]? = some tag) (vs : List Val) (x : Val) (hxv : vs[p]? = some x) (hsw : sw x = k)
    (hv : HasTy Δ ValidUtf8 (Seven w.only7bit) (.ref j) (.cls vs)) (hdep : (Val.cls vs).depth < 2 ^ 32) :
    ∃ out, toJson w Δ (.ref j) (.cls vs) = .ok out ∧ toJson w Δ (.ref i) (.alt k (.cls vs)) = .ok out ∧
      (out.length < 2 ^ 63 → ∃ f0, ∀ f, f0 ≤ f → fromJson t Δ f (.ref i) out = .ok (.alt k (.cls vs))) := by
  have hv' : HasTy Δ ValidUtf8 (Seven w.only7bit) (.ref i) (.alt k (.cls vs)) := by
    rw [HasTy.eq_def]
    simp only [hi]
    exact ⟨⟨j, ms, ex, vs, p, x, hty, hj, rfl, hm, hxv, hsw⟩, .ref j, hty, hv⟩
  obtain ⟨out, h1, h2⟩ := C18_round_trip w t hck Δ hΔ hp hx _ _ hv' hdep rfl
  refine ⟨out, ?_, h1, h2⟩
  rw [← h1]
  simp only [toJson, writeVal, altTys, hi, hty]

theorem exVEnv_names {i : Nat} {ms : List Member} {ex : Bool} (h : exVEnv i = .obj ms ex) {m : Member} (hm : m ∈ ms) :
    m.name ∈ [asc! "a", asc! "t", asc! "x", asc! "y"] := by
  match i with
  | 0 => cases h
  | 1 => cases h; simp only [List.mem_singleton] at hm; subst hm; decide
  | 2 => cases h
  | 3 => cases h; simp only [List.mem_cons, List.not_mem_nil, or_false] at hm; rcases hm with rfl | rfl <;> decide
  | _ + 4 => cases h; simp only [List.mem_cons, List.not_mem_nil, or_false] at hm; rcases hm with rfl | rfl <;> decide

theorem exVEnv_writable : Writable exVEnv where
  nodup := exVEnv_ok
  names := by
    intro i ms ex h m hm
    have := exVEnv_names h hm
    simp only [List.mem_cons, List.not_mem_nil, or_false] at this
    rcases this with h | h | h | h <;> rw [h] <;> exact name1_wf (by decide) (by decide) (by decide)
  compact i ms ex h := by
    match i with
    | 0 => cases h
    | 1 => cases h
    | 2 => cases h
    | 3 => cases h
    | _ + 4 => cases h

theorem exVEnv_plain : PlainNames {} exVEnv where
  plain := by
    intro i ms ex h m hm
    have := exVEnv_names h hm
    simp only [List.mem_cons, List.not_mem_nil, or_false] at this
    rcases this with h | h | h | h <;> rw [h] <;> exact Or.inl (by unfold PlainName; decide)
  tags := by
    intro i tag sw alts h
    have ht : tag = exTag := by
      match i with
      | 0 => cases h
      | 1 => cases h
      | 2 => cases h; rfl
      | 3 => cases h
      | _ + 4 => cases h
    refine ⟨rfl, fun j ms ex _ hj m hm => Or.inr ?_⟩
    have := exVEnv_names hj hm
    subst ht
    simp only [List.mem_cons, List.not_mem_nil, or_false] at this
    rcases this with h | h | h | h <;> rw [h] <;> decide +kernel

/-- Non-vacuity: a vector of a string and an object. -/
example : ∃ out, toJson { pretty := true } exVEnv (.arr (.ref 0)) (.arr [.alt 1 (.str asc! "a"), .alt 3 (.cls [.alt 0 (.int 7)])]) = .ok out ∧
    toJson { pretty := true } exVEnv (.ref 0) (.alt 2 (.arr [.alt 1 (.str asc! "a"), .alt 3 (.cls [.alt 0 (.int 7)])])) = .ok out ∧
    (out.length < 2 ^ 63 → ∃ f0, ∀ f, f0 ≤ f → fromJson {} exVEnv f (.ref 0) out =
      .ok (.alt 2 (.arr [.alt 1 (.str asc! "a"), .alt 3 (.cls [.alt 0 (.int 7)])]))) :=
  C77_variant_round_trip_partial { pretty := true } {} rfl exVEnv exVEnv_writable exVEnv_plain (by simp) rfl (k := 2) rfl _ (by simp)
    (by
      simp [HasTy, HasElems, HasList, exVEnv]
      exact ⟨⟨[0x61], by unfold IsScalar; decide, by decide⟩, by decide⟩) (by decide) rfl

/-- Non-vacuity: a `Y` with tag 1. -/
example : ∃ out, toJson {} exVEnv (.ref 4) (.cls [.str asc! "b", .int 1]) = .ok out ∧
    toJson {} exVEnv (.ref 2) (.alt 1 (.cls [.str asc! "b", .int 1])) = .ok out ∧
    (out.length < 2 ^ 63 → ∃ f0, ∀ f, f0 ≤ f → fromJson {} exVEnv f (.ref 2) out = .ok (.alt 1 (.cls [.str asc! "b", .int 1]))) :=
  C77_tagged_round_trip_partial {} {} rfl exVEnv exVEnv_writable exVEnv_plain (by simp) (i := 2) rfl (k := 1) rfl
    (ms := [⟨asc! "y", .str true⟩, exTag]) (ex := false) rfl (p := 1) rfl _ (.int 1) rfl rfl
    (by
      simp [HasTy, HasList, exVEnv, exTag]
      exact ⟨⟨[0x62], by unfold IsScalar; decide, by decide⟩, by decide⟩) (by decide)

/-- C77 is false of the code for an alternative that is a class stored in an array, and for an empty `optional`: the text that is
written is not read back. -/
theorem C77_false_for_array_classes_and_null :
    toJson {} exOrdEnv (.ref 0) (.alt 1 (.cls [.int 1, .int 2])) = .ok asc! "[1,2]" ∧
    fromJson {} exOrdEnv 9 (.ref 0) asc! "[1,2]" = .err .unexpectedJSONVariantType ∧
    toJson {} exOptEnv (.ref 0) (.alt 1 .none) = .ok asc! "null" ∧
    fromJson {} exOptEnv 9 (.ref 0) asc! "null" = .err .invalidStartOfValue := by decide +kernel

/-- Nor does it hold for a value with the tag of another alternative: the `X` with `t = 1` is written, and read as a `Y` without `y`. -/
theorem C77_false_for_wrong_tag :
    toJson {} exVEnv (.ref 2) (.alt 0 (.cls [.int 1, .int 7])) = .ok asc! "{\"t\":1,\"x\":7}" ∧
    fromJson {} exVEnv 9 (.ref 2) asc! "{\"t\":1,\"x\":7}" = .err .missingMember := by decide +kernel

end Verif
