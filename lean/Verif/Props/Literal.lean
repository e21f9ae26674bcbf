import Verif.Props.Text
import Verif.Props.Sound
import Verif.Props.RealDoc
import Verif.Props.Schema

/-!
# Property C92: booleans and integers as strings

`json_bool` and `json_number` with `LiteralAsStringOpt::Always` or `Maybe`.
-/

namespace Verif

open Spec

/-! ## Reading -/

theorem isNumeral_det {b : Bytes} {i j : Int} (hi : IsNumeral b i) (hj : IsNumeral b j) : i = j := by
  have key : ∀ ds, ¬ IsInt (0x2D :: ds) := by
    rintro ds (h | ⟨⟨-, h⟩, -⟩)
    · simp at h
    · have := h 0x2D (by simp)
      unfold IsDig at this
      exact absurd this (by decide)
  unfold IsNumeral at hi hj
  split at hi <;> split at hj
  · obtain ⟨ds, rfl, -, h1⟩ := hi
    obtain ⟨ds', h, -, h2⟩ := hj
    cases h
    omega
  · obtain ⟨ds, rfl, -, h1⟩ := hi
    exact absurd hj.1 (key ds)
  · obtain ⟨ds, rfl, -, h1⟩ := hj
    exact absurd hi.1 (key ds)
  · rw [← hi.2, ← hj.2]

theorem litText_det {l : LitTy} {b : Bytes} {x y : Lit} (hx : LitText l b x) (hy : LitText l b y) : x = y := by
  generalize hb : b = b' at hy
  cases hx with
  | tru => cases hy with
    | tru => rfl
    | fls => cases hb
  | fls => cases hy with
    | tru => cases hb
    | fls => rfl
  | int _ _ hi => cases hy with
    | int _ _ hj =>
      subst hb
      exact congrArg Lit.int (isNumeral_det hi hj)

/-- **C92**, members, in any order, of a `string_view` and a `std::string`: a boolean or integer that must or may be a string gets the
value that stands between the quotes; if it may be a string, also that which stands there without quotes. -/
theorem C92_members (t : TCfg) (hck : t.cfg.checked = true) (Δ : Env) (henv : EnvOk Δ) {i : Nat}
    {ms : List Member} {ex : Bool} (hi : Δ i = .obj ms ex) (w : Bytes) (jm : JMems)
    (hn : ∀ n ∈ jm.names, Usable t (ms.map Member.name) n) (honce : ∀ m ∈ ms, jm.names.count m.name ≤ 1)
    (hex : (ex || t.exactAll) = true → ∀ n ∈ jm.names, ∃ m ∈ ms, m.name = n)
    (hread : ∀ m ∈ ms, ∀ d, jm.get? m.name = some d → ∃ v, Reads Δ (Usable t) t.exactAll m.ty d v)
    (hopt : ∀ m ∈ ms, jm.get? m.name = none → m.ty.isOpt = true) (hw : (JVal.obj w jm).WF) (hf : (JVal.obj w jm).Fits) :
    ∃ vs f0, (∀ f, f0 ≤ f → fromJson t Δ f (.ref i) (JVal.obj w jm).text = .ok (.cls vs) ∧
        fromJsonZ t Δ f (.ref i) (JVal.obj w jm).text = .ok (.cls vs)) ∧ vs.length = ms.length ∧
      ∀ (p : Nat) (n b : Bytes) (al : Bool) (l : LitTy) (x : Lit), ms[p]? = some ⟨n, .txt (.quoted al l)⟩ → LitText l b x →
        (jm.get? n = some (.str b) → vs[p]? = some (Val.lit x)) ∧
        (∀ d, al = false → d.IsLit → d.text = b → jm.get? n = some d → vs[p]? = some (Val.lit x)) := by
  obtain ⟨vs, f0, h1, h2, h3⟩ := class_members t hck Δ henv hi w jm hn honce hex hread hopt hw hf
  refine ⟨vs, f0, h1, h2, fun p n b al l x hp hx => ⟨fun hg => ?_, fun d ha hl hd hg => ?_⟩⟩
  · obtain ⟨v, hv, hr⟩ := h3 p _ _ hp hg
    cases hr with
    | txt hr =>
      cases hr with
      | quoted hy => rw [hv, litText_det hx hy]
      | bare hl _ => cases hl
  · obtain ⟨v, hv, hr⟩ := h3 p _ _ hp hg
    cases hr with
    | txt hr =>
      cases hr with
      | quoted hy => cases hl
      | bare hl hy =>
        rw [hd] at hy
        rw [hv, litText_det hx hy]

/-- `struct Q { int a; bool b; unsigned c; }`, `a` and `b` always as strings, `c` perhaps. -/
def exQMs : List Member := [⟨[0x61], .txt (.quoted true (.int exI32 false))⟩, ⟨[0x62], .txt (.quoted true .bool)⟩,
  ⟨[0x63], .txt (.quoted false (.int ⟨32, false⟩ true))⟩]
def exQEnv : Env := fun _ => .obj exQMs false

theorem exQEnv_ok : EnvOk exQEnv := .classes (fun i ms ex h => by cases h; decide) (fun i alts h => by cases h)

/-- `{"c":7,"b":"true","a":"7"}` -/
def exQJm : JMems := .cons [] [0x63] [] [] (.num [0x37]) [] (.cons [] [0x62] [] [] (.str asc! "true") []
  (.cons [] [0x61] [] [] (.str [0x37]) [] .nil))

theorem exTrue_wf : IsStrBody (asc! "true") :=
  .plain (by decide) (by decide) (by decide) (.plain (by decide) (by decide) (by decide) (.plain (by decide) (by decide) (by decide)
    (.plain (by decide) (by decide) (by decide) .nil)))

theorem exQJm_wf : (JVal.obj [] exQJm).WF :=
  ⟨Or.inl ws_nil, ws_nil, name1_wf (by decide) (by decide) (by decide), ws_nil, ws_nil, num1_wf (by unfold IsDig; decide) (by decide), ws_nil,
    ws_nil, name1_wf (by decide) (by decide) (by decide), ws_nil, ws_nil, exTrue_wf, ws_nil,
    ws_nil, name1_wf (by decide) (by decide) (by decide), ws_nil, ws_nil, name1_wf (by decide) (by decide) (by decide), ws_nil, trivial⟩

theorem exQ_seven (t : IntTy) (rc : Bool) (ht : t.Valid) (hr : t.InRange 7) : LitText (.int t rc) [0x37] (.int 7) :=
  .int ht hr num7_numeral

theorem exQJm_usable : ∀ n ∈ exQJm.names, Usable {} (exQMs.map Member.name) n := by
  intro n hn
  simp only [exQJm, JMems.names, JMems.toList, List.map_cons, List.map_nil, List.mem_cons, List.not_mem_nil, or_false] at hn
  refine usable_own (by rcases hn with h | h | h <;> simp [exQMs, h]) (Or.inl ?_)
  rcases hn with rfl | rfl | rfl <;> (unfold PlainName; decide)

theorem exQJm_reads : ∀ m ∈ exQMs, ∀ d, exQJm.get? m.name = some d → ∃ v, Reads exQEnv (Usable {}) false m.ty d v := by
  intro m hm d hd
  simp only [exQMs, List.mem_cons, List.not_mem_nil, or_false] at hm
  rcases hm with rfl | rfl | rfl <;> simp [exQJm, JMems_get?_cons] at hd <;> subst hd
  · exact ⟨_, .txt (.quoted (exQ_seven _ _ (by decide) (by decide)))⟩
  · exact ⟨_, .txt (.quoted .tru)⟩
  · exact ⟨_, .txt (.bare (d := .num [0x37]) trivial (exQ_seven _ _ (by decide) (by decide)))⟩

/-- Non-vacuity: all members out of order; `a` is 7 and `c` too. -/
example : ∃ vs f0, (∀ f, f0 ≤ f → fromJson {} exQEnv f (.ref 0) (JVal.obj [] exQJm).text = .ok (.cls vs) ∧
      fromJsonZ {} exQEnv f (.ref 0) (JVal.obj [] exQJm).text = .ok (.cls vs)) ∧
    vs[0]? = some (Val.lit (.int 7)) ∧ vs[2]? = some (Val.lit (.int 7)) := by
  obtain ⟨vs, f0, h1, -, h2⟩ := C92_members {} rfl exQEnv exQEnv_ok (i := 0) (ms := exQMs) (ex := false) rfl [] exQJm exQJm_usable
    (by decide) (by simp) exQJm_reads (fun m hm h => absurd h (by
      simp only [exQMs, List.mem_cons, List.not_mem_nil, or_false] at hm
      rcases hm with rfl | rfl | rfl <;> simp [exQJm, JMems_get?_cons])) exQJm_wf ⟨by decide, by decide⟩
  exact ⟨vs, f0, h1, (h2 0 _ _ _ _ _ rfl (exQ_seven _ _ (by decide) (by decide))).1 rfl,
    (h2 2 _ _ _ _ _ rfl (exQ_seven _ _ (by decide) (by decide))).2 _ rfl (by exact trivial) rfl rfl⟩

theorem readsElems_quoted {Δ : Env} {nm : List Bytes → Bytes → Prop} {ea al : Bool} {l : LitTy} :
    (es : JElems) → (xs : List Lit) → List.Forall₂ (fun d x => ∃ b, d = JVal.str b ∧ LitText l b x) es.toList xs →
      ReadsElems Δ nm ea (.txt (.quoted al l)) es (xs.map Val.lit)
  | .nil, xs, h => by
    cases xs with
    | nil => exact .nil
    | cons => cases h
  | .cons w d w' es, xs, h => by
    cases xs with
    | nil => cases h
    | cons x xs =>
      rw [JElems.toList, List.forall₂_cons] at h
      obtain ⟨⟨b, rfl, hb⟩, h⟩ := h
      exact .cons (.txt (.quoted hb)) (readsElems_quoted es xs h)

/-- **C92**, elements, of a `string_view` and a `std::string`: an array of strings that hold booleans or integers. -/
theorem C92_elements (t : TCfg) (hck : t.cfg.checked = true) (Δ : Env) (henv : EnvOk Δ) (al : Bool) (l : LitTy) (w : Bytes) (es : JElems)
    (xs : List Lit) (hx : List.Forall₂ (fun d x => ∃ b, d = JVal.str b ∧ LitText l b x) es.toList xs) (he : es = .nil → IsWs w)
    (hw : (JVal.arr w es).WF) (hf : (JVal.arr w es).Fits) :
    ∃ f0, ∀ f, f0 ≤ f → fromJson t Δ f (.arr (.txt (.quoted al l))) (JVal.arr w es).text = .ok (.arr (xs.map Val.lit)) ∧
      fromJsonZ t Δ f (.arr (.txt (.quoted al l))) (JVal.arr w es).text = .ok (.arr (xs.map Val.lit)) := by
  obtain ⟨f0, hf0⟩ := C50_from_json_reads t hck Δ henv _ _ _ (.arr he (readsElems_quoted es xs hx)) hw hf (endsWell_of rfl)
  obtain ⟨f1, hf1⟩ := C62_std_string_reads t hck Δ henv _ _ _ (.arr he (readsElems_quoted es xs hx)) hw hf (fun _ => rfl)
  exact ⟨max f0 f1, fun f h => ⟨hf0 f (by omega), hf1 f (by omega)⟩⟩

/-- `["7" , "7"]` -/
def exQArr : JVal := .arr [] (.cons [] (.str [0x37]) [0x20] (.cons [0x20] (.str [0x37]) [] .nil))

/-- Non-vacuity: `["7" , "7"]`. -/
example : ∃ f0, ∀ f, f0 ≤ f → fromJson {} exQEnv f (.arr (.txt (.quoted true (.int exI32 false)))) exQArr.text
      = .ok (.arr [.lit (.int 7), .lit (.int 7)]) ∧
    fromJsonZ {} exQEnv f (.arr (.txt (.quoted true (.int exI32 false)))) exQArr.text = .ok (.arr [.lit (.int 7), .lit (.int 7)]) :=
  C92_elements {} rfl exQEnv exQEnv_ok true (.int exI32 false) [] _ [.int 7, .int 7]
    (.cons ⟨_, rfl, exQ_seven _ _ (by decide) (by decide)⟩ (.cons ⟨_, rfl, exQ_seven _ _ (by decide) (by decide)⟩ .nil)) (by simp)
    ⟨Or.inl ws_nil, ws_nil, name1_wf (by decide) (by decide) (by decide), ws_sp, ws_sp, name1_wf (by decide) (by decide) (by decide), ws_nil, trivial⟩
    ⟨by decide, by decide⟩

/-- **C92, a whole document, partial.**  A document that is a boolean or integer in quotes, with whitespace or a NUL behind it if one
likes, is read from a `string_view` and from a `std::string`.  Missing: unsigned numbers with nothing behind them in a `string_view`,
see `C92_false_at_the_end`. -/
theorem C92_document_partial (t : TCfg) (hck : t.cfg.checked = true) (Δ : Env) (henv : EnvOk Δ) (al : Bool) (l : LitTy) (b : Bytes) (x : Lit)
    (hx : LitText l b x) (hw : (JVal.str b).WF) (hf : (JVal.str b).Fits) (k : Bytes) (hk' : IsWs k) :
    (∃ f0, ∀ f, f0 ≤ f → fromJsonZ t Δ f (.txt (.quoted al l)) ((JVal.str b).text ++ k) = .ok (.lit x)) ∧
    ((∀ bits rc, l = .int ⟨bits, false⟩ rc → k ≠ []) →
      ∃ f0, ∀ f, f0 ≤ f → fromJson t Δ f (.txt (.quoted al l)) ((JVal.str b).text ++ k) = .ok (.lit x)) := by
  have hd : dropNul k = k := dropNul_ws hk'
  have hk : LibSpace k := by
    intro c hc
    have := hk' c hc
    unfold isWsByte at this
    revert this
    simp only [UInt8.le_iff_toNat_le]
    rintro (rfl | rfl | rfl | rfl) <;> decide
  have ha : AfterValue k := ⟨k, [], hk', by simp, Or.inl rfl⟩
  constructor
  · obtain ⟨f0, hf0⟩ := C62_std_string_trailing t hck Δ henv (.txt (.quoted al l)) (.str b) (.lit x) (.txt (.quoted hx)) hw hf k (Or.inr ha)
      (fun _ => rfl)
    refine ⟨f0, fun f hfu => ?_⟩
    obtain ⟨g1, g2, -⟩ := hf0 f hfu
    cases hv : t.verifyEnd with
    | false => exact g1 hv
    | true => exact g2 hv fun c hc => hk c (List.takeWhile_subset _ hc)
  · intro hne
    refine ⟨1, fun f hfu => ?_⟩
    obtain ⟨f, rfl⟩ : ∃ g, f = g + 1 := ⟨f - 1, by omega⟩
    obtain ⟨r, hr, htr⟩ := parseLit_quoted' (cfg := t.cfg) al hx ha (by intro h; rw [hck] at h; cases h) hne
    unfold fromJson
    have he : ((JVal.str b).text ++ k).isEmpty = false := text_ne_empty hw k
    have hn : (if ((JVal.str b).text ++ k).getLast? = some 0 then ((JVal.str b).text ++ k).dropLast else (JVal.str b).text ++ k)
        = (JVal.str b).text ++ dropNul k := dropNul_append (tc := false) hw k
    have hp : parseU t Δ (f + 1) (.txt (.quoted al l)) ((JVal.str b).text ++ dropNul k) = .ok (.lit x, r) := by
      rw [hd]
      have : (JVal.str b).text ++ k = chQuote :: (b ++ chQuote :: k) := by simp [JVal.text]
      rw [this]
      simp only [parseU, parseTxt, hr, Res.ok_bind]
    simp only [he, Bool.not_false, ensure_true, Res.ok_bind, hn, hp]
    have hs : trimChecked r = [] := by
      rw [trimChecked_trimEq htr]
      exact (trimChecked_nil_iff k).2 hk
    cases t.verifyEnd <;> simp [hs, trim_ck hck]

/-- Non-vacuity: `"7"` with nothing behind it. -/
example : (∃ f0, ∀ f, f0 ≤ f → fromJsonZ {} exQEnv f (.txt (.quoted true (.int exI32 false))) asc! "\"7\"" = .ok (.lit (.int 7))) ∧
    ∃ f0, ∀ f, f0 ≤ f → fromJson {} exQEnv f (.txt (.quoted true (.int exI32 false))) asc! "\"7\"" = .ok (.lit (.int 7)) := by
  have := C92_document_partial {} rfl exQEnv exQEnv_ok true (.int exI32 false) [0x37] (.int 7) (exQ_seven _ _ (by decide) (by decide))
    (name1_wf (by decide) (by decide) (by decide)) ⟨by decide, by decide⟩ [] ws_nil
  exact ⟨this.1, this.2 (by simp [exI32])⟩

/-! ## Rejecting -/

/-- **C92**, what is not a string: with `LiteralAsStringOpt::Always` only a string is accepted, as a document and as an element, or as a
member if the members are in order.  (For those out of order see `C92_false_out_of_order`.) -/
theorem C92_always_wants_string (t : TCfg) (hck : t.cfg.checked = true) (Δ : Env)
    (hnod : ∀ i ms ex, Δ i = .obj ms ex → (ms.map Member.name).Nodup) (hpl : PlainShapes Δ t.exactAll) (f : Nat) (l : LitTy)
    (d : JVal) (hw : d.WF) (hf : d.Fits) (v : Val) :
    (fromJson t Δ f (.txt (.quoted true l)) d.text = .ok v → ∃ b, d = .str b) ∧
    (fromJson t Δ f (.arr (.txt (.quoted true l))) d.text = .ok v → ∃ w es, d = .arr w es ∧ ∀ e ∈ es.toList, ∃ b, e = .str b) ∧
    (∀ i ms ex w jm, Δ i = .obj ms ex → d = .obj w jm → (∀ n ∈ jm.names, Usable t (ms.map Member.name) n) →
      (∀ m ∈ ms, jm.names.count m.name ≤ 1) → InOrder ms jm → fromJson t Δ f (.ref i) d.text = .ok v →
      ∀ n e, ⟨n, .txt (.quoted true l)⟩ ∈ ms → jm.get? n = some e → ∃ b, e = .str b) := by
  have hstr : ∀ e, Shaped Δ (Usable t) t.exactAll (.txt (.quoted true l)) e → ∃ b, e = .str b := by
    intro e h
    cases h with
    | quoted => exact ⟨_, rfl⟩
    | txtStr => exact ⟨_, rfl⟩
  refine ⟨fun h => ?_, fun h => ?_, ?_⟩
  · exact hstr d (C86_accepted_fits_partial t hck Δ hnod hpl f _ rfl d hw hf [] ⟨[], [], ws_nil, rfl, Or.inl rfl⟩ v (by simpa using h))
  · have := C86_accepted_fits_partial t hck Δ hnod hpl f (.arr (.txt (.quoted true l))) rfl d hw hf [] ⟨[], [], ws_nil, rfl, Or.inl rfl⟩ v
      (by simpa using h)
    cases this with
    | arr hall => exact ⟨_, _, rfl, fun e he => hstr e (hall e he)⟩
  · rintro i ms ex w jm hi rfl hn honce hord h n e hm he
    exact hstr e (C86_members_in_order t hck Δ hnod hpl f hi w jm hn honce hw hf hord v h _ hm e he)

/-- Non-vacuity: `[7]` is no array of strings with integers. -/
example (f : Nat) (v : Val) : fromJson {} (fun _ => .obj [] false) f (.arr (.txt (.quoted true (.int exI32 false)))) exSeven.text ≠ .ok v := by
  intro h
  obtain ⟨w, es, h1, h2⟩ := (C92_always_wants_string {} rfl (fun _ => .obj [] false) (by intro i ms ex h; cases h; simp)
    ⟨nofun, nofun, fun _ => rfl⟩ f (.int exI32 false) exSeven exSeven_wf ⟨by decide, by decide⟩ v).2.1 h
  cases h1
  obtain ⟨b, hb⟩ := h2 (.num [0x37]) (by simp [JElems.toList])
  cases hb

/-! ## Writing -/

/-- **C92**, writing: with `LiteralAsStringOpt::Always` a boolean or integer is written as a string that holds it, otherwise as itself. -/
theorem C92_written (w : WCfg) (Δ : Env) (al : Bool) (l : LitTy) (x : Lit) (hx : HasLit l x) :
    ∃ b, LitText l b x ∧ toJson w Δ (.txt (.quoted al l)) (.lit x) = .ok (if al then (JVal.str b).text else b) := by
  obtain ⟨d, b, h1, h2, h3, h4⟩ := layLit_cases (al := al) hx
  refine ⟨b, h2, ?_⟩
  simp only [toJson, writeVal, h3]
  rcases h4 with ⟨rfl, rfl⟩ | ⟨rfl, h5, -⟩
  · rfl
  · simp [h5]

/-- **C92**, round trip, partial.  What `to_json` writes for a boolean or integer with `LiteralAsStringOpt::Always` is read back from a
`std::string`, and if it is not an unsigned number, from a `string_view`.  (Inside of classes, arrays and maps it is part of C18 and C62,
with `Maybe` too.)  Missing: see `C92_false_at_the_end`. -/
theorem C92_round_trip_partial (w : WCfg) (t : TCfg) (hck : t.cfg.checked = true) (Δ : Env) (henv : EnvOk Δ) (l : LitTy) (x : Lit)
    (hx : HasLit l x) :
    ∃ out, toJson w Δ (.txt (.quoted true l)) (.lit x) = .ok out ∧ (out.length < 2 ^ 63 →
      (∃ f0, ∀ f, f0 ≤ f → fromJsonZ t Δ f (.txt (.quoted true l)) out = .ok (.lit x)) ∧
      ((∀ bits rc, l ≠ .int ⟨bits, false⟩ rc) → ∃ f0, ∀ f, f0 ≤ f → fromJson t Δ f (.txt (.quoted true l)) out = .ok (.lit x))) := by
  obtain ⟨b, h1, h2⟩ := C92_written w Δ true l x hx
  refine ⟨_, h2, fun hl => ?_⟩
  obtain ⟨g1, g2⟩ := C92_document_partial t hck Δ henv true l b x h1 (litText_body h1) ⟨by simp [JVal.depth], hl⟩ [] ws_nil
  simp only [List.append_nil] at g1 g2
  exact ⟨g1, fun h => g2 fun bits rc hh => absurd hh (h bits rc)⟩

/-- Non-vacuity. -/
example : ∃ out, toJson {} exQEnv (.txt (.quoted true (.int exI32 false))) (.lit (.int (-12))) = .ok out ∧ (out.length < 2 ^ 63 →
    (∃ f0, ∀ f, f0 ≤ f → fromJsonZ {} exQEnv f (.txt (.quoted true (.int exI32 false))) out = .ok (.lit (.int (-12)))) ∧
    ((∀ bits rc, LitTy.int exI32 false ≠ .int ⟨bits, false⟩ rc) →
      ∃ f0, ∀ f, f0 ≤ f → fromJson {} exQEnv f (.txt (.quoted true (.int exI32 false))) out = .ok (.lit (.int (-12))))) :=
  C92_round_trip_partial {} {} rfl exQEnv exQEnv_ok (.int exI32 false) (.int (-12)) ⟨by decide, by decide⟩

/-! ## Where the code does otherwise -/

/-- `json_number` of `int`, `unsigned` and `json_bool`. -/
def qInt (al : Bool) : Ty := .txt (.quoted al (.int exI32 false))
def qUns (al : Bool) : Ty := .txt (.quoted al (.int ⟨32, false⟩ false))
def qBool (al : Bool) : Ty := .txt (.quoted al .bool)

/-- **C92 is false of the code** for a member that stands in front of one mapped before it: the quotes that
`LiteralAsStringOpt::Always` asks for need not be there. -/
theorem C92_false_out_of_order :
    fromJson {} (exAB (.int exI32 false) (qInt true) false) 9 (.ref 0) asc! "{\"b\":5,\"a\":1}" = .ok (.cls [.int 1, .lit (.int 5)]) ∧
    fromJson {} (exAB (.int exI32 false) (qInt true) false) 9 (.ref 0) asc! "{\"a\":1,\"b\":5}" = .err .invalidNumberUnexpectedQuoting := by
  decide +kernel

/-- **C92 is false of the code** for such a member whose string does not hold an integer: something is read from what follows the first
digit. -/
theorem C92_false_for_garbage :
    fromJson {} (exAB (.int exI32 false) (qInt true) false) 9 (.ref 0) asc! "{\"b\":\"5zz\",\"a\":1}" = .ok (.cls [.int 1, .lit (.int 1314)]) ∧
    fromJson {} (exAB (.int exI32 false) (qInt true) false) 9 (.ref 0) asc! "{\"a\":1,\"b\":\"5zz\"}" = .err .invalidNumberUnexpectedQuoting := by
  decide +kernel

/-- **C92 is false of the code** for a string that holds a minus sign and nothing else: it is read as 0, in any order. -/
theorem C92_false_for_minus :
    fromJson {} (exAB (.int exI32 false) (qInt true) false) 9 (.ref 0) asc! "{\"b\":\"-\",\"a\":1}" = .ok (.cls [.int 1, .lit (.int 0)]) ∧
    fromJson {} (exAB (.int exI32 false) (qInt true) false) 9 (.ref 0) asc! "{\"a\":1,\"b\":\"-\"}" = .ok (.cls [.int 1, .lit (.int 0)]) := by
  decide +kernel

/-- **C92 is false of the code** at the end of the text.  An unsigned number in quotes is not read from a `string_view` with nothing behind
it, though a signed one is.  With `LiteralAsStringOpt::Maybe` a number or boolean without quotes is not read if nothing is behind it,
from a `string_view` or a `std::string`. -/
theorem C92_false_at_the_end :
    fromJson {} exQEnv 9 (qUns true) asc! "\"5\"" = .err .unexpectedEndOfData ∧
    fromJson {} exQEnv 9 (qInt true) asc! "\"5\"" = .ok (.lit (.int 5)) ∧
    fromJson {} exQEnv 9 (qInt false) asc! "5" = .err .unexpectedEndOfData ∧
    fromJsonZ {} exQEnv 9 (qInt false) asc! "5" = .err .unexpectedEndOfData ∧
    fromJson {} exQEnv 9 (qBool false) asc! "true" = .err .unexpectedEndOfData ∧
    fromJsonZ {} exQEnv 9 (qBool false) asc! "true" = .err .unexpectedEndOfData := by decide +kernel

theorem fromJson_err {t : TCfg} {Δ : Env} {f : Nat} {ty : Ty} {s : Bytes} {e : Err} (hs : s.isEmpty = false) (h0 : dropNul s = s)
    (h : parseU t Δ f ty s = .err e) : fromJson t Δ f ty s = .err e := by
  unfold fromJson
  have hn : (if s.getLast? = some 0 then s.dropLast else s) = s := h0
  simp only [hs, Bool.not_false, ensure_true, Res.ok_bind, hn, h, Res.err_bind]

theorem fromJsonZ_err {t : TCfg} {Δ : Env} {f : Nat} {ty : Ty} {s : Bytes} {e : Err} (hs : s.isEmpty = false) (h0 : dropNul s = s)
    (h : parseUZ t Δ f ty 0 s = .err e) : fromJsonZ t Δ f ty s = .err e := by
  unfold fromJsonZ
  have hn : (if s.getLast? = some 0 then s.dropLast else s) = s := h0
  simp only [hs, Bool.not_false, ensure_true, Res.ok_bind, hn, h, Res.err_bind]

/-- **C92 is false of the code**: with `LiteralAsStringOpt::Maybe` no number and no boolean is read back as a document, from a
`string_view` or a `std::string`: what is written has no quotes. -/
theorem C92_false_round_trip (w : WCfg) (t : TCfg) (hck : t.cfg.checked = true) (Δ : Env) (l : LitTy) (x : Lit) (hx : HasLit l x) (f : Nat) :
    ∃ out, toJson w Δ (.txt (.quoted false l)) (.lit x) = .ok out ∧
      fromJson t Δ (f + 1) (.txt (.quoted false l)) out = .err .unexpectedEndOfData ∧
      fromJsonZ t Δ (f + 1) (.txt (.quoted false l)) out = .err .unexpectedEndOfData := by
  obtain ⟨b, h1, h2⟩ := C92_written w Δ false l x hx
  refine ⟨b, h2, ?_⟩
  obtain ⟨c, cs, hb, hc⟩ := litText_head h1
  have hz : dropNul b = b := by
    unfold dropNul
    refine if_neg fun h => ?_
    have := litText_plain h1 0 (List.mem_of_getLast? h)
    unfold IsPlain at this
    revert this
    decide
  constructor
  · refine fromJson_err (by simp [hb]) hz ?_
    have := parseLit_close_err (cfg := t.cfg) (al := false) h1 (s := b) (c := []) (e := .unexpectedEndOfData)
      (by rw [List.append_nil, hb]; exact skipQuote_other t.cfg hc cs) (by intro x hx; simp at hx) (by simp [skipQuote, hck, ensure])
    simp only [parseU, parseTxt, this, Res.err_bind]
  · refine fromJsonZ_err (by simp [hb]) hz ?_
    have := parseLitZ_close_err (al := false) h1 (s := b) (c := []) (k := 0) (e := .unexpectedEndOfData)
      (by rw [List.append_nil, hb]; exact skipQuoteZ_other hc (by simp)) (by intro x hx; simp at hx) (by simp)
      (by simp [skipQuoteZ, moreZ, ensure])
    simp only [parseUZ, parseTxtZ, this, Res.err_bind]

/-- **C92 is false of the code**, and C86, for `LiteralAsStringOpt::Maybe`: the quotes need not match.  Text that is not JSON is accepted, and
an array with one string that holds a comma is read as an array of two numbers. -/
theorem C92_false_for_quotes :
    (¬ IsJson (asc! "[\"5]") ∧ fromJson {} exQEnv 9 (.arr (qInt false)) (asc! "[\"5]") = .ok (.arr [.lit (.int 5)])) ∧
    (¬ IsJson (asc! "[5\"]") ∧ fromJson {} exQEnv 9 (.arr (qInt false)) (asc! "[5\"]") = .ok (.arr [.lit (.int 5)])) ∧
    fromJson {} exQEnv 9 (.arr (qInt false)) (asc! "[\"5,6\"]") = .ok (.arr [.lit (.int 5), .lit (.int 6)]) :=
  ⟨⟨not_json (by decide +kernel), by decide +kernel⟩, ⟨not_json (by decide +kernel), by decide +kernel⟩, by decide +kernel⟩

/-- **C92 is false of the code** without checks: a boolean in quotes that stands in front of a member mapped before it is always `true`. -/
theorem C92_false_unchecked :
    fromJson { cfg := { checked := false } } (exAB (.int exI32 false) (qBool true) false) 9 (.ref 0) asc! "{\"b\":\"false\",\"a\":1}"
      = .ok (.cls [.int 1, .lit (.bool true)]) ∧
    fromJson { cfg := { checked := false } } (exAB (.int exI32 false) (qBool true) false) 9 (.ref 0) asc! "{\"a\":1,\"b\":\"false\"}"
      = .ok (.cls [.int 1, .lit (.bool false)]) := by decide +kernel

theorem findAlt_quoted (Δ : Env) {alts : List Ty} (h : ∀ ty ∈ alts, ty = .bool ∨ (∃ it rc, ty = .int it rc) ∨ ∃ al l, ty = .txt (.quoted al l)) (n : Nat) :
    findAlt Δ .string n alts = none := by
  induction alts generalizing n with
  | nil => rfl
  | cons ty ts ih =>
    have hne : ¬ underlying Δ ty = some .string := by
      rcases h ty (List.mem_cons_self ..) with rfl | ⟨it, rc, rfl⟩ | ⟨al, l, rfl⟩
      · simp [underlying]
      · simp [underlying]
      · cases l <;> simp [underlying, TxtKind.underlying]
    rw [findAlt, if_neg hne]
    exact ih (fun x hx => h x (List.mem_cons_of_mem _ hx)) _

/-- **C92 is false of the code** for alternatives of a variant: what is in quotes is taken for a string.  No variant of booleans and integers, in quotes or not, is read
from a text that begins with a quote, so what was written is not read. -/
theorem C92_false_for_variants :
    (∀ (t : TCfg) (Δ : Env) (i f : Nat) (alts : List Ty) (k : Bytes), Δ i = .var alts →
      (∀ ty ∈ alts, ty = .bool ∨ (∃ it rc, ty = .int it rc) ∨ ∃ al l, ty = .txt (.quoted al l)) → k ≠ [] → k.getLast? ≠ some 0 →
      fromJson t Δ (f + 1) (.ref i) (0x22 :: k) = .err .unexpectedJSONVariantType) ∧
    toJson {} (fun _ => .var [qInt true, .bool]) (.ref 0) (.alt 0 (.lit (.int 5))) = .ok asc! "\"5\"" ∧
    fromJson {} (fun _ => .var [qInt true, .bool]) 9 (.ref 0) asc! "\"5\"" = .err .unexpectedJSONVariantType ∧
    toJson {} (fun _ => .var [qBool true]) (.ref 0) (.alt 0 (.lit (.bool true))) = .ok asc! "\"true\"" ∧
    fromJson {} (fun _ => .var [qBool true]) 9 (.ref 0) asc! "\"true\"" = .err .unexpectedJSONVariantType := by
  refine ⟨fun t Δ i f alts k hi ha hk hl => ?_, by decide +kernel, by decide +kernel, by decide +kernel, by decide +kernel⟩
  have hlast : ((0x22 : UInt8) :: k).getLast? ≠ some 0 := by
    cases k with
    | nil => exact absurd rfl hk
    | cons c cs => rwa [List.getLast?_cons_cons]
  unfold fromJson
  dsimp only
  rw [if_neg hlast, parseU]
  simp [hi, ensure, derefEnd, altOfChar, baseOfChar, altOfBase, findAlt_quoted Δ ha]

/-- **C92 is false of the code** for `to_json_schema`: no string is valid against the schema of a boolean or integer that is written as a
string. -/
theorem C92_false_for_schema (D : Draft) (w w' : WCfg) (Δ : Env) (l : LitTy) (x : Lit) (hx : HasLit l x) (id title : Bytes) (hi : IsStrBody id)
    (ht : IsStrBody title) :
    ∃ d : JVal, toJson w Δ (.txt (.quoted true l)) (.lit x) = .ok d.text ∧ ¬ SchemaAccepts D w' (schemaLit l) id title d := by
  obtain ⟨b, h1, h2⟩ := C92_written w Δ true l x hx
  refine ⟨.str b, h2, ?_⟩
  cases l with
  | bool => rw [schemaLit, schemaAccepts_iff (by exact trivial) hi ht rfl]; simp [SVal]
  | int t rc =>
    obtain ⟨bits, sg⟩ := t
    cases sg
    · rw [show schemaLit (.int ⟨bits, false⟩ rc) = .unsigned from rfl, schemaAccepts_iff (by exact trivial) hi ht rfl]; simp [SVal]
    · rw [show schemaLit (.int ⟨bits, true⟩ rc) = .signed from rfl, schemaAccepts_iff (by exact trivial) hi ht rfl]; simp [SVal]

end Verif
