import Verif.Proof.WriteReads
import Verif.Proof.RefParse
import Verif.Props.Typed

/-!
# Properties C18–C20, C44, C45: writing values and reading them back
-/

namespace Verif

open Spec

/-! ## Reading back -/

/-- Mapped names can be read back: they are written without escapes, unless `AllowEscapedNames` is set.  For variants that are told
apart by a member of the object: the other members of the alternatives are not mistaken for that member, and they may stand beside
it (`UseExactMappingsByDefault` forbids that, see `C76_false_with_exact_mappings`). -/
structure Spec.PlainNames (t : TCfg) (Δ : Env) : Prop where
  plain : ∀ i ms ex, Δ i = .obj ms ex → ∀ m ∈ ms, PlainName m.name ∨ t.escNames = true
  tags : ∀ i tag sw alts, Δ i = .ivar tag sw alts → t.exactAll = false ∧ ∀ j ms ex, Ty.ref j ∈ alts → Δ j = .obj ms ex →
    ∀ m ∈ ms, t.forceFull = true ∨ (nameHash false m.name = nameHash false tag.name → m.name = tag.name)

/-- No class stored in an array requires that all elements are mapped. -/
def Spec.NoExactOrdered (t : TCfg) (Δ : Env) : Prop := ∀ i ms ex, Δ i = .ord ms ex → (ex || t.exactAll) = false

theorem hash_inj {N : List Bytes} (h : (N.map (nameHash false)).Nodup) {a b : Bytes} (ha : a ∈ N) (hb : b ∈ N)
    (he : nameHash false a = nameHash false b) : a = b := by
  induction N with
  | nil => simp at ha
  | cons x xs ih =>
    simp only [List.map_cons, List.nodup_cons] at h
    rcases List.mem_cons.1 ha with h1 | h1 <;> rcases List.mem_cons.1 hb with h2 | h2
    · rw [h1, h2]
    · exact absurd (h1 ▸ he ▸ List.mem_map_of_mem h2) h.1
    · exact absurd (h2 ▸ he ▸ List.mem_map_of_mem h1) h.1
    · exact ih h.2 h1 h2

/-- The names of a class are never mistaken for each other. -/
theorem usable_own {t : TCfg} {N : List Bytes} {n : Bytes} (hn : n ∈ N) (hp : PlainName n ∨ t.escNames = true) :
    Usable t N n := by
  refine ⟨hp, ?_⟩
  by_cases h : (N.map (nameHash false)).Nodup
  · exact Or.inr (Or.inr fun m hm he => hash_inj h hn hm he)
  · exact Or.inr (Or.inl h)

theorem readable_of {w : WCfg} {t : TCfg} {Δ : Env} (hp : PlainNames t Δ) (hx : w.tc = true → NoExactOrdered t Δ) :
    Readable (Usable t) t.exactAll w.tc Δ where
  names i ms ex hi m hm := usable_own (List.mem_map_of_mem hm) (hp.plain i ms ex hi m hm)
  exact := hx
  tags i tag sw alts hi := by
    obtain ⟨h1, h2⟩ := hp.tags i tag sw alts hi
    refine ⟨h1, fun j ms ex hj hms m hm => ⟨hp.plain j ms ex hms m hm, ?_⟩⟩
    rcases h2 j ms ex hj hms m hm with h | h
    · exact Or.inl h
    · exact Or.inr (Or.inr (by simpa using h))

/-! ## C18 -/

/-- **C18.**  Every value of every type is written, and what is written, read as that type, is the value again; for every
combination of output options and of parse options in checked mode.  The mapped classes must be `Writable` (see there; no
restriction for classes with different plain names), the nesting representable, the text addressable. -/
theorem C18_round_trip (w : WCfg) (t : TCfg) (hck : t.cfg.checked = true) (Δ : Env) (hΔ : Writable Δ)
    (hp : PlainNames t Δ) (hx : w.tc = true → NoExactOrdered t Δ) (ty : Ty) (v : Val) (hv : HasTy Δ ValidUtf8 (Seven w.only7bit) ty v)
    (hdep : v.depth < 2 ^ 32) (hb : v.bare = false) :
    ∃ out, toJson w Δ ty v = .ok out ∧
      (out.length < 2 ^ 63 → ∃ f0, ∀ f, f0 ≤ f → fromJson t Δ f ty out = .ok v) := by
  obtain ⟨d, hd⟩ := layVal_ok (w := w) 0 ty v hv
  refine ⟨d.text, ?_, fun hl => ?_⟩
  · rw [toJson, writeVal_text hΔ 0 ty v hv, hd]
    rfl
  · have hr := layVal_reads hΔ (readable_of hp hx) 0 ty v hv hd
    have hdd := layVal_depth 0 ty v hd
    exact fromJson_doc hck hΔ.nodup usable_nameOk rfl hr ⟨layVal_wf hΔ 0 ty v hv hd, by omega, hl⟩ (endsWell_of hb)

theorem exEnv_writable : Writable exEnv where
  nodup := exEnv_ok
  names := by
    intro i ms ex h m hm
    cases h
    simp only [exMs, List.mem_cons, List.not_mem_nil, or_false] at hm
    rcases hm with rfl | rfl | rfl <;> exact name1_wf (by decide) (by decide) (by decide)
  compact := by intro i ms ex h; cases h

theorem exEnv_plain (t : TCfg) : PlainNames t exEnv := by
  refine ⟨?_, fun i tag sw alts h => by cases h⟩
  intro i ms ex h m hm
  cases h
  simp only [exMs, List.mem_cons, List.not_mem_nil, or_false] at hm
  rcases hm with rfl | rfl | rfl <;> exact Or.inl (by unfold PlainName; decide)

theorem exVal_hasTy {T : Bytes → Prop} : HasTy exEnv ValidUtf8 T (.ref 0) exVal := by
  simp [exVal, HasTy, HasList, HasElems, exEnv, exMs]
  decide

/-- Non-vacuity: the value `S{ -12, {}, { S{ 0, {}, {} } } }`, pretty printed with trailing commas. -/
example : ∃ out, toJson { pretty := true, tc := true } exEnv (.ref 0) exVal = .ok out ∧
    (out.length < 2 ^ 63 → ∃ f0, ∀ f, f0 ≤ f → fromJson {} exEnv f (.ref 0) out = .ok exVal) :=
  C18_round_trip _ {} rfl exEnv exEnv_writable (exEnv_plain _) (fun _ => by intro i ms ex h; cases h) _ _ exVal_hasTy (by decide) rfl

/-- What is written, minified: `{"a":-12,"c":[{"a":0}]}`. -/
example : toJson {} exEnv (.ref 0) exVal = .ok [0x7B, 0x22, 0x61, 0x22, 0x3A, 0x2D, 0x31, 0x32, 0x2C, 0x22, 0x63, 0x22, 0x3A,
    0x5B, 0x7B, 0x22, 0x61, 0x22, 0x3A, 0x30, 0x7D, 0x5D, 0x7D] := by decide +kernel

/-! ## C19 -/

/-- **C19.**  For any two formats (minified or pretty, any indentation, any newline), other options being the same, a value
is written with both or with neither; the two texts are well-formed (but for the trailing commas asked for) and are the
same document up to whitespace between tokens. -/
theorem C19_format_is_whitespace (w : WCfg) (p : Bool) (i : Indent) (c : Bool) (Δ : Env) (hΔ : Writable Δ) (ty : Ty) (v : Val)
    (hv : HasTy Δ (fun _ => True) (fun _ => True) ty v) :
    (∃ d d' : JVal, toJson w Δ ty v = .ok d.text ∧
      toJson { w with pretty := p, indent := i, crlf := c } Δ ty v = .ok d'.text ∧
      d.WFt w.tc ∧ d'.WFt w.tc ∧ d.strip = d'.strip) ∨
    (toJson w Δ ty v = toJson { w with pretty := p, indent := i, crlf := c } Δ ty v ∧
      ∀ out, toJson w Δ ty v ≠ .ok out) := by
  have hs := layVal_strip (w := w) (w' := { w with pretty := p, indent := i, crlf := c }) (Δ := Δ) ⟨rfl, rfl, rfl⟩ 0 0 ty v
  rw [toJson, toJson, writeVal_text hΔ 0 ty v hv, writeVal_text hΔ 0 ty v hv]
  cases h1 : layVal w Δ 0 ty v with
  | ok d =>
    cases h2 : layVal { w with pretty := p, indent := i, crlf := c } Δ 0 ty v with
    | ok d' =>
      rw [h1, h2] at hs
      simp only [Res.ok_bind, Res.ok.injEq] at hs
      exact Or.inl ⟨d, d', rfl, rfl, layVal_wf hΔ 0 ty v hv h1, layVal_wf (w := { w with pretty := p, indent := i, crlf := c }) hΔ 0 ty v hv h2, hs⟩
    | err e => rw [h1, h2] at hs; simp at hs
    | ub => rw [h1, h2] at hs; simp at hs
  | err e =>
    cases h2 : layVal { w with pretty := p, indent := i, crlf := c } Δ 0 ty v with
    | ok d' => rw [h1, h2] at hs; simp at hs
    | err e' =>
      rw [h1, h2] at hs
      simp only [Res.err_bind, Res.err.injEq] at hs
      right
      simp [hs]
    | ub => rw [h1, h2] at hs; simp at hs
  | ub =>
    cases h2 : layVal { w with pretty := p, indent := i, crlf := c } Δ 0 ty v with
    | ok d' => rw [h1, h2] at hs; simp at hs
    | err e' => rw [h1, h2] at hs; simp at hs
    | ub => right; simp

/-- **C19**, the value: both texts are read as the same value. -/
theorem C19_format_same_value (w : WCfg) (p : Bool) (i : Indent) (c : Bool) (t : TCfg) (hck : t.cfg.checked = true) (Δ : Env)
    (hΔ : Writable Δ) (hp : PlainNames t Δ) (hx : w.tc = true → NoExactOrdered t Δ) (ty : Ty) (v : Val)
    (hv : HasTy Δ ValidUtf8 (Seven w.only7bit) ty v) (hdep : v.depth < 2 ^ 32) (hb : v.bare = false) :
    ∃ out out', toJson w Δ ty v = .ok out ∧ toJson { w with pretty := p, indent := i, crlf := c } Δ ty v = .ok out' ∧
      (out.length < 2 ^ 63 → out'.length < 2 ^ 63 →
        ∃ f0, ∀ f, f0 ≤ f → fromJson t Δ f ty out = .ok v ∧ fromJson t Δ f ty out' = .ok v) := by
  obtain ⟨o1, h1, h2⟩ := C18_round_trip w t hck Δ hΔ hp hx ty v hv hdep hb
  obtain ⟨o2, h3, h4⟩ := C18_round_trip { w with pretty := p, indent := i, crlf := c } t hck Δ hΔ hp hx ty v hv hdep hb
  refine ⟨o1, o2, h1, h3, fun hl1 hl2 => ?_⟩
  obtain ⟨f1, h5⟩ := h2 hl1
  obtain ⟨f2, h6⟩ := h4 hl2
  exact ⟨max f1 f2, fun f hf => ⟨h5 f (by omega), h6 f (by omega)⟩⟩

theorem exVal_hasTy' : HasTy exEnv (fun _ => True) (fun _ => True) (.ref 0) exVal := by
  simp [exVal, HasTy, HasList, HasElems, exEnv, exMs]
  decide

/-- Non-vacuity: pretty printed with tabs and `\r\n`, the sample value is
`{\r\n\t"a": -12,\r\n\t"c": [\r\n\t\t{\r\n\t\t\t"a": 0\r\n\t\t}\r\n\t]\r\n}`. -/
example : toJson { pretty := true, indent := .tab, crlf := true } exEnv (.ref 0) exVal = .ok
    ([0x7B, 0x0D, 0x0A, 0x09, 0x22, 0x61, 0x22, 0x3A, 0x20, 0x2D, 0x31, 0x32, 0x2C, 0x0D, 0x0A, 0x09, 0x22, 0x63, 0x22, 0x3A, 0x20,
      0x5B, 0x0D, 0x0A, 0x09, 0x09, 0x7B, 0x0D, 0x0A, 0x09, 0x09, 0x09, 0x22, 0x61, 0x22, 0x3A, 0x20, 0x30, 0x0D, 0x0A, 0x09, 0x09,
      0x7D, 0x0D, 0x0A, 0x09, 0x5D, 0x0D, 0x0A, 0x7D]) := by decide +kernel

/-! ## C20 -/

/-- **C20, partial.**  Without trailing commas everything `to_json` writes is well-formed JSON, whatever the other options and
whatever the bytes of the strings.  Missing: classes that are not `Writable`, see `C20_false_for_gaps` and
`C20_false_for_quotes_in_names`. -/
theorem C20_output_is_json_partial (w : WCfg) (htc : w.tc = false) (Δ : Env) (hΔ : Writable Δ) (ty : Ty) (v : Val)
    (hv : HasTy Δ (fun _ => True) (fun _ => True) ty v) (out : Bytes) (ho : toJson w Δ ty v = .ok out) : IsJson out := by
  rw [toJson, writeVal_text hΔ 0 ty v hv, Res.bind_eq_ok] at ho
  obtain ⟨d, h1, h2⟩ := ho
  cases h2
  have := layVal_wf hΔ 0 ty v hv h1
  rw [htc] at this
  exact ⟨d, [], [], this, ws_empty, ws_empty, by simp⟩

/-- Non-vacuity. -/
example : ∃ out, toJson { pretty := true } exEnv (.ref 0) exVal = .ok out ∧ IsJson out := by
  obtain ⟨out, h, -⟩ := C18_round_trip { pretty := true } {} rfl exEnv exEnv_writable (exEnv_plain _) (by simp) _ _ exVal_hasTy
    (by decide) rfl
  exact ⟨out, h, C20_output_is_json_partial _ rfl exEnv exEnv_writable _ _ exVal_hasTy' _ h⟩

/-- `struct G { int a; int b; }` with `b` at index 2: a mapping with a gap before the last member only. -/
def exGap1 : Env := fun _ => .ord [(none, .int exI32 false), (some 2, .int exI32 false)] false

/-- `struct H { int a; int b; int c; }` with indices 0, 3 and 4. -/
def exGap2 : Env := fun _ => .ord [(some 0, .int exI32 false), (some 3, .int exI32 false), (some 4, .int exI32 false)] false

/-- An ordered class with a gap before a member that is not the last is not written as JSON: for indices 0, 3, 4 two members
run together.  For integers the text is `[1,null,null,23]`, which happens to be JSON, but not with the values of the class; for
booleans it is `[true,null,null,truetrue]`. -/
theorem C20_false_for_gaps :
    toJson {} exGap2 (.ref 0) (.cls [.int 1, .int 2, .int 3])
      = .ok [0x5B, 0x31, 0x2C, 0x6E, 0x75, 0x6C, 0x6C, 0x2C, 0x6E, 0x75, 0x6C, 0x6C, 0x2C, 0x32, 0x33, 0x5D] ∧
    ∃ out, toJson {} (fun _ => .ord [(some 0, .bool), (some 3, .bool), (some 4, .bool)] false) (.ref 0)
      (.cls [.bool true, .bool true, .bool true]) = .ok out ∧ ¬ IsJson out :=
  ⟨by decide +kernel, _, rfl, not_json (by decide +kernel)⟩

/-- Names are written as they are: a name with a quote, `a"b`, gives `{"a"b":true}`, which is not JSON. -/
theorem C20_false_for_quotes_in_names :
    toJson {} (fun _ => .obj [⟨[0x61, 0x22, 0x62], .bool⟩] false) (.ref 0) (.cls [.bool true])
      = .ok [0x7B, 0x22, 0x61, 0x22, 0x62, 0x22, 0x3A, 0x74, 0x72, 0x75, 0x65, 0x7D] ∧
    ¬ IsJson [0x7B, 0x22, 0x61, 0x22, 0x62, 0x22, 0x3A, 0x74, 0x72, 0x75, 0x65, 0x7D] :=
  ⟨by decide +kernel, not_json (by decide +kernel)⟩

/-! ## C44 -/

/-- **C44, partial.**  A class stored in an array: each member is the element at its index (its own index, or else its
position), all other elements are `null`, and reading the text gives the same members.  Missing: mappings with a gap before
a member that is not the last, see `C44_false_for_gaps`. -/
theorem C44_ordered_by_index_partial (w : WCfg) (t : TCfg) (hck : t.cfg.checked = true) (Δ : Env) (hΔ : Writable Δ)
    (hp : PlainNames t Δ) (hx : w.tc = true → NoExactOrdered t Δ) {i : Nat} {ms : List (Option Nat × Ty)} {ex : Bool}
    (hi : Δ i = .ord ms ex) (vs : List Val) (hv : HasTy Δ ValidUtf8 (Seven w.only7bit) (.ref i) (.cls vs)) (hdep : (Val.cls vs).depth < 2 ^ 32) :
    ∃ wc es, toJson w Δ (.ref i) (.cls vs) = .ok (JVal.arr wc es).text ∧ (JVal.arr wc es).WFt w.tc ∧
      (∀ (p : Nat) (want : Option Nat) (ty : Ty) (v : Val), ms[p]? = some (want, ty) → vs[p]? = some v →
        ∃ d, es.toList[want.getD p]? = some d ∧ Reads Δ (Usable t) t.exactAll ty d v) ∧
      (∀ (j : Nat) (d : JVal), es.toList[j]? = some d →
        (∃ (p : Nat) (m : Option Nat × Ty), ms[p]? = some m ∧ j = m.1.getD p) ∨ d = .null) ∧
      ((JVal.arr wc es).text.length < 2 ^ 63 →
        ∃ f0, ∀ f, f0 ≤ f → fromJson t Δ f (.ref i) (JVal.arr wc es).text = .ok (.cls vs)) := by
  obtain ⟨out, h1, h2⟩ := C18_round_trip w t hck Δ hΔ hp hx _ _ hv hdep rfl
  obtain ⟨d, hd⟩ := layVal_ok (w := w) 0 _ _ hv
  have hwf := layVal_wf hΔ 0 _ _ hv hd
  have hout : out = d.text := by
    rw [toJson, writeVal_text hΔ 0 _ _ hv, hd] at h1
    simpa using h1.symm
  simp only [layVal, hi] at hd
  rw [Res.bind_eq_ok] at hd
  obtain ⟨es, he, hd⟩ := hd
  cases hd
  subst hout
  simp only [HasTy, hi] at hv
  have hlen := hasList_length hv
  rw [List.length_map] at hlen
  obtain ⟨ha, hb⟩ := layOrdered_at 1 0 ms vs hlen (hΔ.compact i ms ex hi) he
  refine ⟨_, es, h1, hwf, ?_, ?_, h2⟩
  · intro p want ty v hpm hpv
    obtain ⟨d, hd1, hd2⟩ := ha p want ty v hpm hpv
    rw [Nat.zero_add, Nat.sub_zero] at hd1
    have : ∀ (ts : List Ty) (vs : List Val) (p : Nat) (ty : Ty) (v : Val), HasList Δ ValidUtf8 (Seven w.only7bit) ts vs → ts[p]? = some ty →
        vs[p]? = some v → HasTy Δ ValidUtf8 (Seven w.only7bit) ty v := by
      intro ts vs
      induction vs generalizing ts with
      | nil => intro p ty v _ _ h; simp at h
      | cons x xs ih =>
        intro p ty v h h1 h2
        cases ts with
        | nil => simp at h1
        | cons t ts =>
          rw [HasList] at h
          cases p with
          | zero =>
            simp only [List.getElem?_cons_zero, Option.some.injEq] at h1 h2
            subst h1 h2
            exact h.1
          | succ p => exact ih ts p ty v h.2 (by simpa using h1) (by simpa using h2)
    exact ⟨d, hd1, layVal_reads hΔ (readable_of hp hx) 1 ty v
      (this _ _ p ty v hv (by rw [List.getElem?_map, hpm]; rfl) hpv) hd2⟩
  · intro j d hj
    rcases hb j d hj with ⟨p, m, h3, h4⟩ | h
    · exact Or.inl ⟨p, m, h3, by simpa using h4⟩
    · exact Or.inr h

theorem exGap1_writable : Writable exGap1 where
  nodup := .classes (by intro i ms ex h; cases h) (by intro i alts h; cases h)
  names := by intro i ms ex h; cases h
  compact := by
    intro i ms ex h
    cases h
    simp [Compact]

/-- Non-vacuity: `G{1, 2}` is written as `[1,null,2]`. -/
example : ∃ wc es, toJson {} exGap1 (.ref 0) (.cls [.int 1, .int 2]) = .ok (JVal.arr wc es).text ∧
    ∃ f0, ∀ f, f0 ≤ f → fromJson {} exGap1 f (.ref 0) (JVal.arr wc es).text = .ok (.cls [.int 1, .int 2]) := by
  have hs : toJson {} exGap1 (.ref 0) (.cls [.int 1, .int 2])
      = .ok [0x5B, 0x31, 0x2C, 0x6E, 0x75, 0x6C, 0x6C, 0x2C, 0x32, 0x5D] := by decide +kernel
  obtain ⟨wc, es, h1, -, -, -, h2⟩ := C44_ordered_by_index_partial {} {} rfl exGap1 exGap1_writable
    ⟨fun i ms ex h => (by cases h), fun i tag sw alts h => (by cases h)⟩ (by simp) (ms := [(none, .int exI32 false), (some 2, .int exI32 false)]) (ex := false) rfl
    [.int 1, .int 2] (by simp [HasTy, HasList, exGap1]; decide) (by decide)
  refine ⟨wc, es, h1, h2 ?_⟩
  rw [hs, Res.ok.injEq] at h1
  rw [← h1]
  decide

/-- **C44 is false of the code** for indices 0, 3, 4: the text of `H{1, 2, 3}` is `[1,null,null,23]`, which is rejected. -/
theorem C44_false_for_gaps :
    ∃ out e, toJson {} exGap2 (.ref 0) (.cls [.int 1, .int 2, .int 3]) = .ok out ∧
      fromJson {} exGap2 9 (.ref 0) out = .err e :=
  ⟨[0x5B, 0x31, 0x2C, 0x6E, 0x75, 0x6C, 0x6C, 0x2C, 0x6E, 0x75, 0x6C, 0x6C, 0x2C, 0x32, 0x33, 0x5D], .missingMember,
    C20_false_for_gaps.1, by decide +kernel⟩

/-! ## C45 -/

/-- **C45, partial.**  With `OutputTrailingComma` the document written is accepted by `from_json` and gives the same value.
Missing: classes stored in an array with an exact mapping, see `C45_false_for_exact_ordered`. -/
theorem C45_trailing_comma_partial (w : WCfg) (t : TCfg) (hck : t.cfg.checked = true) (Δ : Env)
    (hΔ : Writable Δ) (hp : PlainNames t Δ) (hx : NoExactOrdered t Δ) (ty : Ty) (v : Val) (hv : HasTy Δ ValidUtf8 (Seven w.only7bit) ty v)
    (hdep : v.depth < 2 ^ 32) (hb : v.bare = false) :
    ∃ out, toJson { w with tc := true } Δ ty v = .ok out ∧
      (out.length < 2 ^ 63 → ∃ f0, ∀ f, f0 ≤ f → fromJson t Δ f ty out = .ok v) :=
  C18_round_trip { w with tc := true } t hck Δ hΔ hp (fun _ => hx) ty v hv hdep hb

/-- Non-vacuity, with all members omitted: `L{}` is written as `{,}`, and read. -/
example : toJson { tc := true } exEnvL (.ref 0) (.cls [.none]) = .ok [0x7B, 0x2C, 0x7D] ∧
    fromJson {} exEnvL 9 (.ref 0) [0x7B, 0x2C, 0x7D] = .ok (.cls [.none]) := by decide +kernel
example : ∃ out, toJson { tc := true } exEnv (.ref 0) exVal = .ok out ∧
    (out.length < 2 ^ 63 → ∃ f0, ∀ f, f0 ≤ f → fromJson {} exEnv f (.ref 0) out = .ok exVal) :=
  C45_trailing_comma_partial {} {} rfl exEnv exEnv_writable (exEnv_plain _) (by intro i ms ex h; cases h) _ _ exVal_hasTy
    (by decide) rfl

/-- `struct O { int a; int b; }` stored in an array, with an exact mapping. -/
def exOrdX : Env := fun _ => .ord [(none, .int exI32 false), (none, .int exI32 false)] true

/-- **C45 is false of the code** for an ordered class with an exact mapping: `[1,2,]` is written, and rejected. -/
theorem C45_false_for_exact_ordered :
    toJson { tc := true } exOrdX (.ref 0) (.cls [.int 1, .int 2]) = .ok [0x5B, 0x31, 0x2C, 0x32, 0x2C, 0x5D] ∧
    fromJson {} exOrdX 9 (.ref 0) [0x5B, 0x31, 0x2C, 0x32, 0x2C, 0x5D] = .err .unknownMember := by decide +kernel

end Verif
