import Verif.Proof.Unchecked
import Verif.Props.Exact

/-!
# Property C80: `CheckedParseMode::no`

The checked parser is compared with the unchecked one, which sees the document and the memory behind it
(`fromJsonMem`).
-/

namespace Verif

open Spec

/-- The same options with checks. -/
def TCfg.withChecks (t : TCfg) : TCfg := { t with cfg := { t.cfg with checked := true } }

/-- The same options without checks. -/
def TCfg.withoutChecks (t : TCfg) : TCfg := { t with cfg := { t.cfg with checked := false } }

theorem text_ws_last {d : JVal} (hw : d.WF) {k : Bytes} (hk : IsWs k) : (d.text ++ k).getLast? ≠ some 0 := by
  have h1 := dropNul_append hw k
  intro h0
  rw [dropNul_ws hk] at h1
  unfold dropNul at h1
  rw [if_pos h0] at h1
  have h3 := congrArg List.length h1
  rw [List.length_dropLast] at h3
  have h4 : (d.text ++ k).length ≠ 0 := by
    intro h
    rw [List.length_eq_zero_iff.1 h] at h0
    simp at h0
  omega

/-- **C80, partial.**  A document of the type, white space behind it included, gives the same value with and without
checks, if somewhere behind the document there is a byte in memory that is not white space (a zero byte will do).  It has
no empty nullable parts, and strings may hold any character.  A number, `true` or `false` alone is followed by `,`, `]` or
`}` in memory.  Missing: documents with `null` or without some nullable member, for which it is false, see below. -/
theorem C80_unchecked_agrees_partial (t : TCfg) (Δ : Env) (henv : EnvOk Δ) (hwide : ∀ i, (Δ i).wide = true) (ty : Ty)
    (d : JVal) (v : Val) (hr : Reads Δ (Usable t) t.exactAll ty d v) (hw : d.WF) (hf : d.Fits) (htw : ty.wide = true)
    (hv : v.noNone = true) (k mem : Bytes) (hk : IsWs k) (c : UInt8) (hc : c ∈ mem) (hcs : c = 0 ∨ 0x20 < c)
    (hcl : d.ends v = false → AfterValue (k ++ mem)) (he : k = [] → EndsWell d v) :
    ∃ f0, ∀ f, f0 ≤ f → fromJsonMem t.withoutChecks Δ f ty (d.text ++ k) mem = .ok v ∧
      fromJson t.withChecks Δ f ty (d.text ++ k) = .ok v := by
  have hsp : isSpace c = false := by
    rcases hcs with rfl | h
    · decide
    · have := c.toNat_lt
      rw [UInt8.lt_iff_toNat_lt] at h
      simp only [UInt8.reduceToNat] at h
      simp only [isSpace, decide_eq_false_iff_not]
      omega
  have hm : Nonsp mem := nonsp_of_mem hc hsp
  have hne : (d.text ++ k).isEmpty = false := text_ne_empty hw k
  have hafter : AfterValue k := ⟨k, [], hk, by simp, Or.inl rfl⟩
  obtain ⟨f0, hf0⟩ := fromJsonMem_reads (t := t.withoutChecks) hwide henv (usable_nameOk (t := t)) rfl hr
    (dok_of hw hf) htw hv k mem hk hm hcl
  obtain ⟨f1, hf1⟩ := fromJson_reads (t := t.withChecks) rfl henv (usable_nameOk (t := t)) rfl hr
    (dok_of hw hf) k (fun _ => hafter) (by rw [dropNul_ws hk]; exact he)
  refine ⟨max f0 f1, fun f hfm => ⟨?_, ?_⟩⟩
  · obtain ⟨r, hr, htr⟩ := hf0 f (by omega)
    obtain ⟨r', ht, hl⟩ := trim_mem (cfg := t.withoutChecks.cfg) hk hm htr
    unfold fromJsonMem
    simp only [hne, Bool.not_false, ensure_true, Res.ok_bind, if_neg (text_ws_last hw hk), List.append_assoc, hr, ht, hl,
      decide_true]
    split <;> rfl
  · rw [hf1 f (by omega), if_neg]
    rintro ⟨-, h⟩
    apply h
    rw [dropNul_ws hk]
    have := trimChecked_ws k [] hk
    rw [List.append_nil] at this
    rw [this]
    rfl

/-- **C80, partial.**  The same for a document that ends with a zero byte, such as a string literal with the zero at its
end: nothing is read behind it, whatever the memory. -/
theorem C80_unchecked_literal_partial (t : TCfg) (Δ : Env) (henv : EnvOk Δ) (hwide : ∀ i, (Δ i).wide = true) (ty : Ty)
    (d : JVal) (v : Val) (hr : Reads Δ (Usable t) t.exactAll ty d v) (hw : d.WF) (hf : d.Fits) (htw : ty.wide = true)
    (hv : v.noNone = true) (k mem : Bytes) (hk : IsWs k) (hcl : d.ends v = true) :
    ∃ f0, ∀ f, f0 ≤ f → fromJsonMem t.withoutChecks Δ f ty (d.text ++ k ++ [0]) mem = .ok v ∧
      fromJson t.withChecks Δ f ty (d.text ++ k ++ [0]) = .ok v := by
  obtain ⟨f0, hf0⟩ := C80_unchecked_agrees_partial t Δ henv hwide ty d v hr hw hf htw hv k (0 :: mem) hk 0 (by simp)
    (Or.inl rfl) (by simp [hcl]) (fun _ => hr.endsWell_ends hcl)
  refine ⟨f0, fun f hfm => ?_⟩
  obtain ⟨h1, h2⟩ := hf0 f hfm
  have hne : (d.text ++ k).isEmpty = false := text_ne_empty hw k
  have hne' : (d.text ++ k ++ [0]).isEmpty = false := by simp
  unfold fromJsonMem fromJson at *
  have hl : (d.text ++ k ++ [0]).getLast? = some 0 := by rw [List.getLast?_append]; rfl
  simp only [hne, Bool.not_false, ensure_true, Res.ok_bind, if_neg (text_ws_last hw hk)] at h1 h2
  simp only [hne', Bool.not_false, ensure_true, Res.ok_bind, if_pos hl, List.dropLast_concat]
  exact ⟨h1, h2⟩

/-! ### A concrete mapping and document

`struct P { int a; optional<string> s; }` and `[{"s":"hi","x":[7] , "a":7}, {"a":1,"s":""}]`. -/

def exPMs : List Member := [⟨asc! "a", .int exI32 true⟩, ⟨asc! "s", .opt (.str true)⟩]

def exPEnv : Env := fun _ => .obj exPMs false

theorem exPEnv_ok : EnvOk exPEnv :=
  .classes (fun i ms ex h => by cases h; decide) (fun i alts h => by cases h)

def exP1 : JMems := .cons [] (asc! "s") [] [] (.str (asc! "hi")) []
  (.cons [] (asc! "x") [] [] exSeven [0x20] (.cons [0x20] (asc! "a") [] [] (.num [0x37]) [] .nil))

def exP2 : JMems := .cons [] (asc! "a") [] [] (.num [0x31]) [] (.cons [] (asc! "s") [] [] (.str []) [] .nil)

def exPDoc : JVal := .arr [] (.cons [] (.obj [] exP1) [] (.cons [0x20] (.obj [] exP2) [] .nil))

theorem exPDoc_wf : exPDoc.WF := by
  have hhi : IsStrBody (asc! "hi") :=
    .plain (by decide) (by decide) (by decide) (.plain (by decide) (by decide) (by decide) .nil)
  exact ⟨Or.inl ws_nil, ws_nil,
    ⟨Or.inl ws_nil, ws_nil, name1_wf (by decide) (by decide) (by decide), ws_nil, ws_nil, hhi, ws_nil,
      ws_nil, name1_wf (by decide) (by decide) (by decide), ws_nil, ws_nil, exSeven_wf, ws_sp,
      ws_sp, name1_wf (by decide) (by decide) (by decide), ws_nil, ws_nil,
      num1_wf (by unfold IsDig; decide) (by decide), ws_nil, trivial⟩, ws_nil, ws_sp,
    ⟨Or.inl ws_nil, ws_nil, name1_wf (by decide) (by decide) (by decide), ws_nil, ws_nil,
      num1_wf (by unfold IsDig; decide) (by decide), ws_nil,
      ws_nil, name1_wf (by decide) (by decide) (by decide), ws_nil, ws_nil, .nil, ws_nil, trivial⟩, ws_nil, trivial⟩

theorem exP_usable (n : Bytes) (h : n = asc! "a" ∨ n = asc! "s" ∨ n = asc! "x") : Usable {} (exPMs.map Member.name) n := by
  refine ⟨Or.inl ?_, Or.inr (Or.inr ?_)⟩
  · rcases h with rfl | rfl | rfl <;> (unfold PlainName; decide)
  · rcases h with rfl | rfl | rfl <;> decide +kernel

def exPVal : Val :=
  .arr [.cls [.int 7, .some (.str (asc! "hi"))], .cls [.int 1, .some (.str [])]]

theorem exPDoc_reads : Reads exPEnv (Usable {}) false (.arr (.ref 0)) exPDoc exPVal := by
  refine .arr (by simp) (.cons (.obj (ms := exPMs) (ex := false) rfl ?_ (by decide) (by simp) ?_)
    (.cons (.obj (ms := exPMs) (ex := false) rfl ?_ (by decide) (by simp) ?_) .nil))
  · intro n hn
    simp only [JMems.names, exP1, JMems.toList, List.map_cons, List.map_nil, List.mem_cons, List.not_mem_nil, or_false] at hn
    rcases hn with rfl | rfl | rfl <;> exact exP_usable _ (by simp)
  · exact .found (d := .num [0x37]) rfl (.int (by decide) (by decide) num7_numeral)
      (.found (d := .str (asc! "hi")) rfl (.some (by simp)
        (.str (.plain (by decide) (by decide) (by decide) (.plain (by decide) (by decide) (by decide) .nil)))) .nil)
  · intro n hn
    simp only [JMems.names, exP2, JMems.toList, List.map_cons, List.map_nil, List.mem_cons, List.not_mem_nil, or_false] at hn
    rcases hn with rfl | rfl <;> exact exP_usable _ (by simp)
  · exact .found (d := .num [0x31]) rfl (.int (by decide) (by decide) exOne_numeral)
      (.found (d := .str []) rfl (.some (by simp) (.str .nil)) .nil)

/-- Non-vacuity: the document above followed by a line feed, and a zero byte in memory. -/
example : ∃ f0, ∀ f, f0 ≤ f → fromJsonMem { cfg := { checked := false } } exPEnv f (.arr (.ref 0)) (exPDoc.text ++ [0x0A]) [0] = .ok exPVal ∧
      fromJson {} exPEnv f (.arr (.ref 0)) (exPDoc.text ++ [0x0A]) = .ok exPVal :=
  C80_unchecked_agrees_partial {} exPEnv exPEnv_ok (fun _ => rfl) _ _ _ exPDoc_reads exPDoc_wf ⟨by decide, by decide⟩ rfl
    rfl [0x0A] [0] (by simp [IsWs, isWsByte]) 0 (by decide) (Or.inl rfl) (by intro h; cases h) (by intro h; cases h)

/-- Non-vacuity: the document above as a literal. -/
example : ∃ f0, ∀ f, f0 ≤ f → fromJsonMem { cfg := { checked := false } } exPEnv f (.arr (.ref 0)) (exPDoc.text ++ [] ++ [0]) [] = .ok exPVal ∧
      fromJson {} exPEnv f (.arr (.ref 0)) (exPDoc.text ++ [] ++ [0]) = .ok exPVal :=
  C80_unchecked_literal_partial {} exPEnv exPEnv_ok (fun _ => rfl) _ _ _ exPDoc_reads exPDoc_wf ⟨by decide, by decide⟩ rfl
    rfl [] [] ws_nil rfl

/-! ### Where it is false -/

/-- Without checks. -/
def exUn : TCfg := { cfg := { checked := false } }

/-- **C80 is false for `null`.**  Without checks the character behind `null` is taken away with it
(`daw_json_parse_value.h` L322-336): the array `[null]` loses its bracket, and the parser runs on into the memory behind
the document. -/
theorem C80_false_for_null :
    fromJson {} exPEnv 10 (.arr (.opt .bool)) (asc! "[null]") = .ok (.arr [.none]) ∧
      fromJsonMem exUn exPEnv 10 (.arr (.opt .bool)) (asc! "[null]") (asc! ",true]") = .ok (.arr [.none, .some (.bool true)]) ∧
      fromJsonMem exUn exPEnv 10 (.arr (.opt .bool)) (asc! "[null]") [0] ≠ .ok (.arr [.none]) := by
  decide +kernel

/-- `struct T { optional<int> a; int b; optional<int> c; }` and `struct U { optional<int> a; bool b; }`. -/
def exU3 : Env
  | 0 => .obj [⟨asc! "a", .opt (.int exI32 true)⟩, ⟨asc! "b", .int exI32 true⟩, ⟨asc! "c", .opt (.int exI32 true)⟩] false
  | _ => .obj [⟨asc! "a", .opt (.int exI32 true)⟩, ⟨asc! "b", .bool⟩] false

/-- **C80 is false for absent nullable members.**  Looking for an absent member after another one has been passed over,
the unchecked parser does not see the end of the object: it searches for the next quote (`daw_json_location_info.h`
L258-263).  Given the first line of `{"b":1}⏎{"c":2}` it takes `c` from the second one; with nothing behind the document
it reads out of bounds. -/
theorem C80_false_for_absent_member :
    fromJson {} exU3 10 (.ref 0) (asc! "{\"b\":1}") = .ok (.cls [.none, .int 1, .none]) ∧
      fromJsonMem exUn exU3 10 (.ref 0) (asc! "{\"b\":1}") (asc! "\n{\"c\":2}") = .ok (.cls [.none, .int 1, .some (.int 2)]) ∧
      fromJsonMem exUn exU3 10 (.ref 0) (asc! "{\"b\":1}") [0] = .ub := by
  decide +kernel

/-- **C80 is false for what is not of the type but accepted.**  A boolean member given as the string `"false"` in front of
another member that is looked for first: checked it is false, unchecked true (`daw_json_parse_value.h` L379-392). -/
theorem C80_false_for_quoted_bool :
    fromJson {} exU3 10 (.ref 1) (asc! "{\"b\":\"false\",\"a\":1}") = .ok (.cls [.some (.int 1), .bool false]) ∧
      fromJsonMem exUn exU3 10 (.ref 1) (asc! "{\"b\":\"false\",\"a\":1}") [0] =
        .ok (.cls [.some (.int 1), .bool true]) := by
  decide +kernel

/-- **C80 needs the byte behind a number.**  Digits behind the document are taken for part of it; without a readable byte
behind the document the parser reads out of bounds. -/
theorem C80_false_for_number_before_digits :
    fromJson {} exU3 10 (.int exI32 true) (asc! "12") = .ok (.int 12) ∧
      fromJsonMem exUn exU3 10 (.int exI32 true) (asc! "12") (asc! "34]") = .ok (.int 1234) ∧
      fromJsonMem exUn exU3 10 (.int exI32 true) (asc! "12") [] = .ub := by
  decide +kernel

end Verif
