import Verif.Props.Typed
import Verif.Proof.Iter
import Verif.Proof.IterPart

/-!
# Properties C34–C36, C52: iteration over arrays and JSON lines

The theorems about iteration are about the checked parser (the default).  A use of an iterator is a list of numbers: at
the i-th element dereference as often as the i-th number says, then increment.
-/

namespace Verif

open Spec

/-! ## C35: arrays -/

/-- The documents are read as the values, one by one. -/
def ReadsAll (t : TCfg) (Δ : Env) (ty : Ty) (ds : List JVal) (vs : List Val) : Prop :=
  vs.length = ds.length ∧
    ∀ (i : Nat) (d : JVal) (v : Val), ds[i]? = some d → vs[i]? = some v → Reads Δ (Usable t) t.exactAll ty d v

theorem readsAll_sem {t : TCfg} (hck : t.cfg.checked = true) {Δ : Env} (henv : EnvOk Δ) {ty : Ty} :
    (ds : List JVal) → (vs : List Val) → ReadsAll t Δ ty ds vs → (∀ d ∈ ds, DOk false d) →
    ∃ f0, ∀ f, f0 ≤ f → ∀ (i : Nat) (d : JVal) (v : Val), ds[i]? = some d → vs[i]? = some v → SemU true (parseU t Δ f ty) d v
  | [], _, _, _ => ⟨0, by simp⟩
  | d :: ds, [], h, _ => by simp [ReadsAll] at h
  | d :: ds, v :: vs, h, hd => by
    obtain ⟨a, ha⟩ := reads_sem hck henv usable_nameOk rfl (h.2 0 d v rfl rfl) (hd d (by simp))
    obtain ⟨b, hb⟩ := readsAll_sem hck henv ds vs ⟨by simpa using h.1, fun i d v hi hv =>
      h.2 (i + 1) d v (by simpa using hi) (by simpa using hv)⟩ (fun x hx => hd x (by simp [hx]))
    refine ⟨max a b, fun f hf i e w hi hw => ?_⟩
    cases i with
    | zero =>
      simp only [List.getElem?_cons_zero, Option.some.injEq] at hi hw
      subst hi hw
      exact hck ▸ (ha f (by omega)).1
    | succ i => exact hb f (by omega) i e w (by simpa using hi) (by simpa using hw)

/-- The values with a mark at those that are not dereferenced. -/
def marked {α : Type} (cs : List Nat) (vs : List α) : List (α × Bool) := vs.mapIdx fun i v => (v, cs[i]? == some 0)

theorem marked_get {α : Type} {cs : List Nat} {vs : List α} {i : Nat} {a : α} {sk : Bool} (h : (marked cs vs)[i]? = some (a, sk)) :
    vs[i]? = some a ∧ sk = (cs[i]? == some 0) := by
  simp only [marked, List.getElem?_mapIdx, Option.map_eq_some_iff, Prod.mk.injEq] at h
  obtain ⟨v, h1, rfl, h2⟩ := h
  exact ⟨h1, h2.symm⟩

theorem marked_map {α : Type} (cs : List Nat) (vs : List α) : (marked cs vs).map Prod.fst = vs := by
  apply List.ext_getElem?
  intro i
  simp only [marked, List.getElem?_map, List.getElem?_mapIdx]
  cases vs[i]? <;> rfl

theorem marked_length {α : Type} (cs : List Nat) (vs : List α) : (marked cs vs).length = vs.length := by simp [marked]

/-- From a chain of elements to the user's loop. -/
theorem walk_marked {α : Type} {cfg : Cfg} (hck : cfg.checked = true) {k : ItKind} {ops : ElemOps α} {cs : List Nat} {vs : List α}
    {p : Bytes} (h : Chain k ops (marked cs vs) p) (hl : cs.length ≤ vs.length) :
    ∃ it, itWalk cfg k ops cs { pos := p } = .ok (List.zipWith List.replicate cs vs, it) ∧
      (itGood k it = true ↔ cs.length < vs.length) := by
  obtain ⟨p', h1, h2⟩ := itWalk_chain (b := false) hck _ p h cs (by rwa [marked_length]) (fun i a sk hi hc => by
    have := (marked_get hi).2
    simpa [hc] using this)
  rw [marked_map] at h1
  refine ⟨_, h1, ?_⟩
  simp [itGood, chain_good h2, marked_length]

/-- **C35 for arrays, partial.**  Iterating over an array with a `json_array_iterator` yields the values of the elements
in order: at the i-th element each dereference gives the i-th value, and the iterator is good as long as there are
elements left and not longer.  Elements that are not dereferenced must be `Passable`: see
`C35_bool_false`, `C35_nullable_false` and `C35_ordered_class_false`. -/
theorem C35_array_partial (t : TCfg) (hck : t.cfg.checked = true) (Δ : Env) (henv : EnvOk Δ) (ty : Ty) (w : Bytes) (es : JElems)
    (vs : List Val) (hr : ReadsAll t Δ ty es.toList vs) (hd : (JVal.arr w es).WF) (hf : (JVal.arr w es).Fits)
    (pre k : Bytes) (hpre : IsWs pre) (cs : List Nat) (hl : cs.length ≤ vs.length)
    (hs : ∀ (i : Nat) (d : JVal), es.toList[i]? = some d → cs[i]? = some 0 → Passable Δ ty d) :
    ∃ f0, ∀ f, f0 ≤ f → ∃ it it', itMake t.cfg .array (pre ++ ((JVal.arr w es).text ++ k)) = .ok it ∧
      itWalk t.cfg .array (typedOps t Δ f ty) cs it = .ok (List.zipWith List.replicate cs vs, it') ∧
      (itGood .array it' = true ↔ cs.length < vs.length) := by
  obtain ⟨hw, hes, hall⟩ := array_ok (dok_of hd hf)
  obtain ⟨f0, hf0⟩ := readsAll_sem hck henv es.toList vs hr hall
  refine ⟨f0, fun f hfu => ?_⟩
  have hch : Chain .array (typedOps t Δ f ty) (marked cs vs) (arrRest w k es) := by
    refine chain_array hck hw (fun d a sk => SemU true (parseU t Δ f ty) d a ∧ DOk false d ∧ Reads Δ (Usable t) t.exactAll ty d a ∧
      (sk = true → Passable Δ ty d)) ?_ es hes _ (by rw [marked_length, hr.1]) ?_
    · rintro d a sk k' ⟨h1, h2, h3, h4⟩ hk' hne
      refine ⟨h1 k' (fun _ => ⟨hk', fun h => absurd h hne⟩) (by simp), fun hsk => ⟨k', ?_, TrimEq.refl _⟩⟩
      exact skipKnown_text hck h3 h2 (h4 hsk) (fun _ _ => numEnd_after hk')
    · intro i d a sk hi hm
      obtain ⟨hv, hsk⟩ := marked_get hm
      exact ⟨hf0 f hfu i d a hi hv, hall d (List.mem_of_getElem? hi), hr.2 i d a hi hv,
        fun h => hs i d hi (by simpa [hsk] using h)⟩
  obtain ⟨it', h1, h2⟩ := walk_marked hck hch hl
  exact ⟨_, it', itMake_array hck hd pre k hpre, h1, h2⟩

/-- **C35 for arrays of `json_value`.**  With the default element type, every array is iterated over completely and in
order, whatever is dereferenced: each dereference gives the text of the element (nothing for `null`). -/
theorem C35_array_of_json_values (cfg : Cfg) (hck : cfg.checked = true) (w : Bytes) (es : JElems)
    (hd : (JVal.arr w es).WF) (hf : (JVal.arr w es).Fits) (pre k : Bytes) (hpre : IsWs pre) (cs : List Nat)
    (hl : cs.length ≤ es.toList.length) :
    ∃ it it', itMake cfg .array (pre ++ ((JVal.arr w es).text ++ k)) = .ok it ∧
      itWalk cfg .array (rawOps cfg) cs it = .ok (List.zipWith List.replicate cs (es.toList.map (rangeText true)), it') ∧
      (itGood .array it' = true ↔ cs.length < es.toList.length) := by
  obtain ⟨hw, hes, hall⟩ := array_ok (dok_of hd hf)
  have hch : Chain .array (rawOps cfg) (marked cs (es.toList.map (rangeText true))) (arrRest w k es) := by
    refine chain_array (t := { cfg := cfg }) hck hw (fun d a _ => a = rangeText true d ∧ DOk false d) ?_ es hes _
      (by rw [marked_length, List.length_map]) ?_
    · rintro d a sk k' ⟨rfl, h2⟩ hk' hne
      obtain ⟨h3, h4⟩ := raw_text hck h2 (fun _ => ⟨hk', hne⟩) (fun _ _ => numEnd_after hk')
      exact ⟨h3, fun _ => h4⟩
    · intro i d a sk hi hm
      obtain ⟨hv, -⟩ := marked_get hm
      simp only [List.getElem?_map, hi, Option.map_some, Option.some.injEq] at hv
      exact ⟨hv.symm, hall d (List.mem_of_getElem? hi)⟩
  obtain ⟨it', h1, h2⟩ := walk_marked hck hch (by simpa using hl)
  exact ⟨_, it', itMake_array hck hd pre k hpre, h1, by simpa using h2⟩

/-! ### Where C35 fails for arrays -/

/-- `[true,false]` as an array of booleans: an element that is not dereferenced is not passed, the second `*it` still gives
the first element, and after two increments the iterator is still good. -/
theorem C35_bool_false :
    itMake {} .array (JVal.arr [] (.cons [] .tru [] (.cons [] .fls [] .nil))).text
      = .ok { pos := txtTrue ++ chComma :: (txtFalse ++ [chRBrack]) } ∧
    itWalk {} .array (typedOps {} exEnv 9 .bool) [0, 1] { pos := txtTrue ++ chComma :: (txtFalse ++ [chRBrack]) }
      = .ok ([[], [.bool true]], { pos := txtFalse ++ [chRBrack] }) ∧
    itGood .array { pos := txtFalse ++ [chRBrack] } = true := by decide +kernel

/-- The same for any number of increments: `++it` on a boolean never moves. -/
theorem C35_bool_stuck (t : TCfg) (hck : t.cfg.checked = true) (Δ : Env) (f : Nat) (b : Bool) (k : Bytes) (n : Nat) :
    let p := (if b then txtTrue else txtFalse) ++ k
    itWalk t.cfg .array (typedOps t Δ f .bool) (List.replicate n 0) { pos := p } = .ok (List.replicate n [], { pos := p }) := by
  intro p
  have aw : ∀ e, assertWeak t.cfg.checked true e = .ok () := by intro e; cases t.cfg.checked <;> rfl
  have h1 : hasElem .array p = true := by cases b <;> rfl
  have h2 : skipKnown t.cfg Δ .bool p = .ok p := by
    cases b <;> simp [p, skipKnown, skipNumber, skipDigitsIf, hck, skipDigits, isDigit, parseDigit, skipFrac, skipExp]
  have h3 : moveNextChecked p = p := by
    cases b <;> simp [p, moveNextChecked, trimChecked, isSpace]
  induction n with
  | zero => rfl
  | succ n ih =>
    have hE : itWalk t.cfg .array (typedOps t Δ f .bool) (List.replicate (n + 1) 0) { pos := p } =
      (do let it₂ ← itInc t.cfg .array (typedOps t Δ f .bool) { pos := p }
          let (ass, it₃) ← itWalk t.cfg .array (typedOps t Δ f .bool) (List.replicate n 0) it₂
          .ok ([] :: ass, it₃)) := rfl
    rw [hE]
    have hI : itInc t.cfg .array (typedOps t Δ f .bool) { pos := p } = .ok { pos := p } := by
      simp [itInc, h1, aw, typedOps, h2, moveNext_ck hck, h3]
    simp only [hI, Res.ok_bind, ih]
    rfl

/-- `[null,7]` as an array of `optional<int>`: a nullable element that is not a number is not passed either. -/
theorem C35_nullable_false :
    itMake {} .array (JVal.arr [] (.cons [] .null [] (.cons [] (.num [0x37]) [] .nil))).text
      = .ok { pos := txtNull ++ [chComma, 0x37, chRBrack] } ∧
    itWalk {} .array (typedOps {} exEnv 9 (.opt (.int exI32 false))) [0, 1] { pos := txtNull ++ [chComma, 0x37, chRBrack] }
      = .ok ([[], [.none]], { pos := [0x37, chRBrack] }) ∧
    itGood .array { pos := [0x37, chRBrack] } = true := by decide +kernel

/-- `struct P { int x; }` stored as `[x]`. -/
def exEnvO : Env := fun _ => .ord [(none, .int exI32 false)] false

/-- `[[1],[2]]` as an array of such classes: dereferenced elements are fine, an element that is not dereferenced is an
error. -/
theorem C35_ordered_class_false :
    itWalk {} .array (typedOps {} exEnvO 9 (.ref 0)) [1, 1] { pos := [0x5B, 0x31, 0x5D, 0x2C, 0x5B, 0x32, 0x5D, 0x5D] }
      = .ok ([[.cls [.int 1]], [.cls [.int 2]]], { pos := [0x5D] }) ∧
    itWalk {} .array (typedOps {} exEnvO 9 (.ref 0)) [0, 1] { pos := [0x5B, 0x31, 0x5D, 0x2C, 0x5B, 0x32, 0x5D, 0x5D] }
      = .err .invalidClassStart := by decide +kernel

/-- `[1,2]` as an array of custom types that are stored as literals: dereferenced elements are fine, an element that is not
dereferenced is an error, because it is taken for a string. -/
theorem C35_custom_literal_false :
    itWalk {} .array (typedOps {} exEnvO 9 (.txt (.custom .lit))) [1, 1] { pos := [0x31, 0x2C, 0x32, 0x5D] }
      = .ok ([[.txt [0x31]], [.txt [0x32]]], { pos := [0x5D] }) ∧
    itWalk {} .array (typedOps {} exEnvO 9 (.txt (.custom .lit))) [0, 1] { pos := [0x31, 0x2C, 0x32, 0x5D] }
      = .err .invalidString := by decide +kernel

/-! ### Examples for arrays -/

/-- `[{"x":[7] , "c":[{"a":0}],"a": -12} ]` -/
def exElems : JElems := .cons [] exDoc [0x20] .nil

theorem exElems_wf : (JVal.arr [] exElems).WF := ⟨Or.inl ws_nil, ws_nil, exDoc_wf, ws_sp, trivial⟩

/-- Non-vacuity: the first element dereferenced twice, and not at all. -/
example : (∃ f0, ∀ f, f0 ≤ f → ∃ it it', itMake {} .array ([0x20] ++ ((JVal.arr [] exElems).text ++ [])) = .ok it ∧
      itWalk {} .array (typedOps {} exEnv f (.ref 0)) [2] it = .ok ([[exVal, exVal]], it') ∧
      (itGood .array it' = true ↔ 1 < 1)) ∧
    ∃ f0, ∀ f, f0 ≤ f → ∃ it it', itMake {} .array ([0x20] ++ ((JVal.arr [] exElems).text ++ [])) = .ok it ∧
      itWalk {} .array (typedOps {} exEnv f (.ref 0)) [0] it = .ok ([[]], it') ∧
      (itGood .array it' = true ↔ 1 < 1) := by
  have hr : ReadsAll {} exEnv (.ref 0) exElems.toList [exVal] := by
    refine ⟨rfl, fun i d v hi hv => ?_⟩
    cases i with
    | zero => simp [exElems, JElems.toList] at hi hv; subst hi hv; exact exDoc_reads
    | succ i => simp at hv
  exact ⟨C35_array_partial {} rfl exEnv exEnv_ok (.ref 0) [] exElems [exVal] hr exElems_wf ⟨by decide, by decide⟩ [0x20] [] ws_sp [2]
      (by decide) (by intro i d hi hc; cases i <;> simp at hc),
    C35_array_partial {} rfl exEnv exEnv_ok (.ref 0) [] exElems [exVal] hr exElems_wf ⟨by decide, by decide⟩ [0x20] [] ws_sp [0]
      (by decide) (by intro i d _ _; exact ⟨fun ms ex h => (by cases h), fun alts h => (by cases h)⟩)⟩

/-- Non-vacuity. -/
example : ∃ it it', itMake {} .array ([0x20] ++ ((JVal.arr [] exElems).text ++ [])) = .ok it ∧
    itWalk {} .array (rawOps {}) [0] it = .ok ([[]], it') ∧ (itGood .array it' = true ↔ 1 < 1) :=
  C35_array_of_json_values {} rfl [] exElems exElems_wf ⟨by decide, by decide⟩ [0x20] [] ws_sp [0] (by decide)

/-! ## C35: `json_array_iterator_once` -/

/-- **C35 for `json_array_iterator_once`, partial.**  Used as documented, `*it` and `++it` in turn, it yields the values in order up
to the last but one, and stays good.  Missing is the step over the last element. -/
theorem C35_once_partial (t : TCfg) (hck : t.cfg.checked = true) (Δ : Env) (henv : EnvOk Δ) (ty : Ty) (w : Bytes) (es : JElems)
    (vs : List Val) (hr : ReadsAll t Δ ty es.toList vs) (hd : (JVal.arr w es).WF) (hf : (JVal.arr w es).Fits)
    (pre k : Bytes) (hpre : IsWs pre) (n : Nat) (hn : n < vs.length) :
    ∃ f0, ∀ f, f0 ≤ f → ∃ it it', itMake t.cfg .array (pre ++ ((JVal.arr w es).text ++ k)) = .ok it ∧
      onceWalk t.cfg (typedOps t Δ f ty) n it = .ok (vs.take n, it') ∧ itGood .array it' = true := by
  obtain ⟨hw, hes, hall⟩ := array_ok (dok_of hd hf)
  obtain ⟨f0, hf0⟩ := readsAll_sem hck henv es.toList vs hr hall
  refine ⟨f0, fun f hfu => ?_⟩
  obtain ⟨it, h1, h2⟩ := (onceWalk_array (k := k) hck hw (fun d a => SemU true (parseU t Δ f ty) d a) (ops := typedOps t Δ f ty)
    (fun d a k' h hk' hne => h k' (fun _ => ⟨hk', fun h => absurd h hne⟩) (by simp)) es hes vs hr.1 (hf0 f hfu) n).1 hn
  exact ⟨_, it, itMake_array hck hd pre k hpre, h1, h2⟩

/-- With `json_array_iterator_once` the step over the last element throws whenever the closing bracket follows it directly: after
the element has been parsed the iterator stands at the bracket, and `++it` demands that it does not. -/
theorem C35_once_false (t : TCfg) (hck : t.cfg.checked = true) (Δ : Env) (henv : EnvOk Δ) (ty : Ty) (es : JElems)
    (vs : List Val) (hr : ReadsAll t Δ ty es.toList vs) (hne : vs ≠ []) (hd : (JVal.arr [] es).WF) (hf : (JVal.arr [] es).Fits)
    (hlast : es.lastPost = []) (pre k : Bytes) (hpre : IsWs pre) :
    ∃ f0, ∀ f, f0 ≤ f → ∃ it, itMake t.cfg .array (pre ++ ((JVal.arr [] es).text ++ k)) = .ok it ∧
      onceWalk t.cfg (typedOps t Δ f ty) vs.length it = .err .unexpectedEndOfData := by
  obtain ⟨hw, hes, hall⟩ := array_ok (dok_of hd hf)
  obtain ⟨f0, hf0⟩ := readsAll_sem hck henv es.toList vs hr hall
  refine ⟨f0, fun f hfu => ⟨_, itMake_array hck hd pre k hpre, ?_⟩⟩
  exact (onceWalk_array (k := k) hck hw (fun d a => SemU true (parseU t Δ f ty) d a) (ops := typedOps t Δ f ty)
    (fun d a k' h hk' hne => h k' (fun _ => ⟨hk', fun h => absurd h hne⟩) (by simp)) es hes vs hr.1 (hf0 f hfu) vs.length).2 rfl
    (List.length_pos_iff.2 hne) hlast rfl

/-- Non-vacuity: `[1,2]`, step by step. -/
example :
    onceWalk {} (typedOps {} exEnv 9 (.int exI32 false)) 1 { pos := [0x31, 0x2C, 0x32, 0x5D] }
      = .ok ([.int 1], { pos := [0x32, 0x5D] }) ∧
    onceWalk {} (typedOps {} exEnv 9 (.int exI32 false)) 2 { pos := [0x31, 0x2C, 0x32, 0x5D] }
      = .err .unexpectedEndOfData := by decide +kernel

/-- Non-vacuity: the hypotheses are met by `[-12,0]`. -/
example : (∃ f0, ∀ f, f0 ≤ f → ∃ it it', itMake {} .array ([] ++ ((JVal.arr [] (.cons [] exNum [] (.cons [] (.num [0x30]) [] .nil))).text ++ [])) = .ok it ∧
      onceWalk {} (typedOps {} exEnv f (.int exI32 false)) 1 it = .ok ([.int (-12)], it') ∧ itGood .array it' = true) ∧
    ∃ f0, ∀ f, f0 ≤ f → ∃ it, itMake {} .array ([] ++ ((JVal.arr [] (.cons [] exNum [] (.cons [] (.num [0x30]) [] .nil))).text ++ [])) = .ok it ∧
      onceWalk {} (typedOps {} exEnv f (.int exI32 false)) 2 it = .err .unexpectedEndOfData := by
  have hr : ReadsAll {} exEnv (.int exI32 false) [exNum, .num [0x30]] [.int (-12), .int 0] := by
    refine ⟨rfl, fun i d v hi hv => ?_⟩
    match i with
    | 0 => simp at hi hv; subst hi hv; exact .int (by decide) (by decide) exNum_numeral
    | 1 => simp at hi hv; subst hi hv; exact .int (by decide) (by decide) exZero_numeral
    | i + 2 => simp at hv
  have hwf : (JVal.arr [] (.cons [] exNum [] (.cons [] (.num [0x30]) [] .nil))).WF :=
    ⟨Or.inl ws_nil, ws_nil, exNum_wf, ws_nil, ws_nil, num0_wf, ws_nil, trivial⟩
  exact ⟨C35_once_partial {} rfl exEnv exEnv_ok _ [] (.cons [] exNum [] (.cons [] (.num [0x30]) [] .nil)) _ hr hwf
      ⟨by decide, by decide⟩ [] [] ws_nil 1 (by decide),
    C35_once_false {} rfl exEnv exEnv_ok _ (.cons [] exNum [] (.cons [] (.num [0x30]) [] .nil)) _ hr (by simp) hwf
      ⟨by decide, by decide⟩ rfl [] [] ws_nil⟩

/-! ## C35: JSON lines -/

/-- **C35 for JSON lines, partial.**  Iterating over a JSON lines document yields the values in order: at the i-th value
each dereference gives it, and the iterator is good as long as there are values left and not longer.  All values but the last must be
`LineElem`s: strings, arrays, objects or unsigned integers, see `C35_lines_false`; those that are not dereferenced must be `Passable`, as in arrays. -/
theorem C35_lines_partial (t : TCfg) (hck : t.cfg.checked = true) (Δ : Env) (henv : EnvOk Δ) (ty : Ty) (ds : List JVal)
    (vs : List Val) (hr : ReadsAll t Δ ty ds vs) (hd : ∀ d ∈ ds, d.WF ∧ d.Fits) 
    (hle : ∀ (i : Nat) d v, ds.dropLast[i]? = some d → vs[i]? = some v → LineElem ty d v)
    (doc : Bytes) (hdoc : LinesDoc ds doc) (cs : List Nat) (hl : cs.length ≤ vs.length)
    (hs : ∀ (i : Nat) (d : JVal), ds[i]? = some d → cs[i]? = some 0 → Passable Δ ty d)
    (he : ∀ (d : JVal) (v : Val), ds.getLast? = some d → vs.getLast? = some v → EndsWell d v) :
    ∃ f0, ∀ f, f0 ≤ f → ∃ it it', itMake t.cfg .lines doc = .ok it ∧
      itWalk t.cfg .lines (typedOps t Δ f ty) cs it = .ok (List.zipWith List.replicate cs vs, it') ∧
      (itGood .lines it' = true ↔ cs.length < vs.length) := by
  have hall : ∀ d ∈ ds, DOk false d := fun d h => dok_of (hd d h).1 (hd d h).2
  obtain ⟨f0, hf0⟩ := readsAll_sem hck henv ds vs hr hall
  refine ⟨f0 + 1, fun f hfu => ?_⟩
  obtain ⟨f, rfl⟩ : ∃ g, f = g + 1 := ⟨f - 1, by omega⟩
  have hch : Chain .lines (typedOps t Δ (f + 1) ty) (marked cs vs) (trimChecked doc) := by
    refine chain_lines (fun last d a sk => SemU true (parseU t Δ (f + 1) ty) d a ∧ DOk false d ∧
      Reads Δ (Usable t) t.exactAll ty d a ∧ (sk = true → Passable Δ ty d) ∧ (last = false → LineElem ty d a) ∧ (last = true → EndsWell d a)) ?_ ds
      (fun d h => (hd d h).1) doc hdoc _ (by rw [marked_length, hr.1]) ?_
    · rintro last d a sk k' ⟨h1, h2, h3, h4, h5, h6⟩ hk' hlast
      refine ⟨?_, fun hsk => ⟨k', skipKnown_text hck h3 h2 (h4 hsk) (fun _ _ => lineAfter_numEnd hk'), TrimEq.refl _⟩⟩
      cases last with
      | true => exact h1 k' (fun _ => ⟨⟨k', [], hlast rfl, by simp, Or.inl rfl⟩, fun _ => h6 rfl⟩) (by simp)
      | false =>
        rcases h5 rfl with h5 | ⟨ity, rc, rfl, hsg⟩
        · exact h1 k' (fun h => by simp [h5] at h) (by simp)
        · cases h3 with
          | int hv hir hn =>
            refine ⟨k', ?_, TrimEq.refl _⟩
            have := parseInt_numeral_before t.cfg ity hv _ hir rc _ hn k' (fun x hx => (lineAfter_numEnd hk' x hx).1)
              (lineAfter_endOfItem hk') (fun h => by simp [hsg] at h) (fun h => by simp [hck] at h)
            simp only [hsg, Bool.false_eq_true, if_false] at this
            simp only [typedOps, parseU, JVal.text, this, Res.ok_bind]
    · intro i d a sk hi hm
      obtain ⟨hv, hsk⟩ := marked_get hm
      refine ⟨hf0 _ (by omega) i d a hi hv, hall d (List.mem_of_getElem? hi), hr.2 i d a hi hv,
        fun h => hs i d hi (by simpa [hsk] using h), fun h => hle i d a ?_ hv, fun h => he d a ?_ ?_⟩
      rotate_left
      · rw [List.getLast?_eq_getElem?, ← hi]
        simp at h
        congr 1
        omega
      · rw [List.getLast?_eq_getElem?, ← hv, hr.1]
        simp at h
        congr 1
        omega
      have hlt : i < ds.length := (List.getElem?_eq_some_iff.1 hi).1
      have hne : i + 1 ≠ ds.length := by simpa using h
      rw [List.getElem?_dropLast, if_pos (by omega), hi]
  obtain ⟨it', h1, h2⟩ := walk_marked hck hch hl
  exact ⟨_, it', by simp only [itMake, trim_ck hck, Res.ok_bind], h1, h2⟩

/-- **C35 for JSON lines of `json_value`, partial.**  With the default element type, a JSON lines document of strings,
numbers, arrays and objects is iterated over completely and in order, whatever is dereferenced.  Missing are `true`,
`false` and `null`: see `C35_lines_false`. -/
theorem C35_lines_of_json_values_partial (cfg : Cfg) (hck : cfg.checked = true) (ds : List JVal)
    (hd : ∀ d ∈ ds, d.WF ∧ d.Fits) (hle : ∀ d ∈ ds, d.isLiteral = false)
    (doc : Bytes) (hdoc : LinesDoc ds doc) (cs : List Nat) (hl : cs.length ≤ ds.length) :
    ∃ it it', itMake cfg .lines doc = .ok it ∧
      itWalk cfg .lines (rawOps cfg) cs it = .ok (List.zipWith List.replicate cs (ds.map JVal.text), it') ∧
      (itGood .lines it' = true ↔ cs.length < ds.length) := by
  have hall : ∀ d ∈ ds, DOk false d := fun d h => dok_of (hd d h).1 (hd d h).2
  have hch : Chain .lines (rawOps cfg) (marked cs (ds.map JVal.text)) (trimChecked doc) := by
    refine chain_lines (fun _ d a _ => a = d.text ∧ DOk false d ∧ d.isLiteral = false) ?_ ds
      (fun d h => (hd d h).1) doc hdoc _ (by rw [marked_length, List.length_map]) ?_
    · rintro last d a sk k' ⟨rfl, h2, h3⟩ hk' -
      obtain ⟨h4, h5⟩ := raw_text hck h2 (fun h => by simp [h3] at h) (fun _ _ => lineAfter_numEnd hk')
      have : rangeText true d = d.text := by cases d <;> simp_all [rangeText, JVal.text, JVal.isLiteral]
      rw [this] at h4
      exact ⟨h4, fun _ => h5⟩
    · intro i d a sk hi hm
      obtain ⟨hv, -⟩ := marked_get hm
      simp only [List.getElem?_map, hi, Option.map_some, Option.some.injEq] at hv
      exact ⟨hv.symm, hall d (List.mem_of_getElem? hi), hle d (List.mem_of_getElem? hi)⟩
  obtain ⟨it', h1, h2⟩ := walk_marked hck hch (by simpa using hl)
  exact ⟨_, it', by simp only [itMake, trim_ck hck, Res.ok_bind], h1, by simpa using h2⟩

/-- JSON lines of booleans, of signed integers and of untyped literals are rejected: the parsers for these values want a comma, a
closing bracket or the end of the text behind the value and the whitespace that follows.  `true⏎false`, `1⏎2`, and
`null⏎7` as `json_value`s. -/
theorem C35_lines_false :
    itWalk {} .lines (typedOps {} exEnv 9 .bool) [1] { pos := txtTrue ++ 0x0A :: txtFalse } = .err .invalidEndOfValue ∧
    itWalk {} .lines (typedOps {} exEnv 9 (.int exI32 false)) [1] { pos := [0x31, 0x0A, 0x32] } = .err .invalidEndOfValue ∧
    itWalk {} .lines (rawOps {}) [1] { pos := txtNull ++ [0x0A, 0x37] } = .err .unexpectedEndOfData := by decide +kernel

/-- Non-vacuity: `{"x":[7] , …}⏎⏎[7]` is a JSON lines document of two values. -/
theorem exLines : LinesDoc [exDoc, exSeven] ([] ++ (exDoc.text ++ ([0x0A, 0x0A] ++ (exSeven.text ++ [])))) :=
  .cons ws_nil (.cons (by simp [IsWs, isWsByte]) (.nil ws_nil) (Or.inl rfl)) (Or.inr ⟨0x0A, _, rfl, by simp [IsWs, isWsByte]⟩)

example : ∃ it it', itMake {} .lines ([] ++ (exDoc.text ++ ([0x0A, 0x0A] ++ (exSeven.text ++ [])))) = .ok it ∧
    itWalk {} .lines (rawOps {}) [0, 2] it = .ok ([[], [exSeven.text, exSeven.text]], it') ∧
    (itGood .lines it' = true ↔ 2 < 2) :=
  C35_lines_of_json_values_partial {} rfl [exDoc, exSeven]
    (by simp only [List.mem_cons, List.not_mem_nil, or_false]
        rintro d (rfl | rfl)
        · exact ⟨exDoc_wf, exDoc_fits⟩
        · exact ⟨exSeven_wf, by decide, by decide⟩)
    (by simp [exDoc, exSeven, JVal.isLiteral]) _ exLines [0, 2] (by decide)

/-- Non-vacuity: two lines, each an `S`, the first dereferenced, the second not. -/
example : ∃ f0, ∀ f, f0 ≤ f → ∃ it it',
    itMake {} .lines ([] ++ (exDoc.text ++ ([0x0A] ++ (exDoc.text ++ [0x0A])))) = .ok it ∧
    itWalk {} .lines (typedOps {} exEnv f (.ref 0)) [1, 0] it = .ok ([[exVal], []], it') ∧
    (itGood .lines it' = true ↔ 2 < 2) := by
  refine C35_lines_partial {} rfl exEnv exEnv_ok (.ref 0) [exDoc, exDoc] [exVal, exVal] ⟨rfl, fun i d v hi hv => ?_⟩
    (by simp [exDoc_wf, exDoc_fits]) (by
      intro i d v hi hv
      cases i <;> simp at hi hv
      subst hi hv
      exact Or.inl rfl) _
    (.cons ws_nil (.cons (by simp [IsWs, isWsByte]) (.nil (by simp [IsWs, isWsByte])) (Or.inr ⟨0x0A, _, rfl, by simp [IsWs, isWsByte]⟩))
      (Or.inr ⟨0x0A, _, rfl, by simp [IsWs, isWsByte]⟩)) [1, 0] (by decide) (by intro i d _ _; exact ⟨fun ms ex h => (by cases h), fun alts h => (by cases h)⟩)
    (by intro d v _ h; cases h; exact endsWell_of rfl)
  match i with
  | 0 => simp at hi hv; subst hi hv; exact exDoc_reads
  | 1 => simp at hi hv; subst hi hv; exact exDoc_reads
  | i + 2 => simp at hv

/-! ## C36 -/

/-- **C36** for `json_array_iterator` and `json_lines_iterator`.  `==` is an equivalence, `!=` its negation; two iterators
without an element are equal, and an iterator with an element is different from one without. -/
theorem C36_equality (k : ItKind) (a b c : It) :
    (itGood k a = false → itGood k b = false → itEq k a b = true) ∧
    (itGood k a = true → itGood k b = false → itEq k a b = false ∧ itEq k b a = false) ∧
    itNe k a b = !itEq k a b ∧
    itEq k a a = true ∧ itEq k a b = itEq k b a ∧ (itEq k a b = true → itEq k b c = true → itEq k a c = true) := by
  unfold itEq itNe
  refine ⟨?_, ?_, ?_, ?_, ?_, ?_⟩
  · cases itGood k a <;> cases itGood k b <;> simp
  · cases itGood k a <;> cases itGood k b <;> simp
  · cases itGood k a <;> cases itGood k b <;> simp [bne]
  · cases itGood k a <;> simp
  · cases itGood k a <;> cases itGood k b <;> simp [BEq.comm]
  · cases itGood k a <;> cases itGood k b <;> cases itGood k c <;> simp
    omega

/-- **C36, the end.**  An iterator equals the default constructed one, which ends every range, exactly if it is default constructed itself, or nothing follows, or, in
an array, the closing bracket follows. -/
theorem C36_end (it : It) :
    (itEq .array it .default = true ↔ it.null = true ∨ it.pos = [] ∨ ∃ cs, it.pos = 0x5D :: cs) ∧
    (itEq .lines it .default = true ↔ it.null = true ∨ it.pos = []) ∧
    (∀ k, itEq k .default it = itEq k it .default ∧ itNe k it .default = !itEq k it .default) := by
  obtain ⟨pos, cs, nl⟩ := it
  refine ⟨?_, ?_, fun k => ⟨((C36_equality k _ _ It.default).2.2.2.2.1).symm, (C36_equality k _ _ It.default).2.2.1⟩⟩
  · cases nl <;> cases pos with
    | nil => simp [itEq, itGood, hasElem, headIs, It.default]
    | cons c cs => by_cases h : c = 0x5D <;> simp [itEq, itGood, hasElem, headIs, It.default, h]
  · cases nl <;> cases pos <;> simp [itEq, itGood, hasElem, It.default]

/-- Non-vacuity: an iterator at the `]` of a document equals the default constructed end; one at an element does not. -/
example : itEq .array { pos := [0x5D] } .default = true ∧ itEq .array { pos := [0x31, 0x5D] } .default = false ∧
    itEq .lines { pos := [] } .default = true ∧ itEq .lines { pos := [0x31] } .default = false := by decide

/-- C36 is false for `json_array_iterator_once`: two iterators without an element are different, and one without is equal to
every one with an element.  (`==` is not even symmetric then.) -/
theorem C36_once_false (a b : It) (ha : itGood .array a = false) :
    (itGood .array b = false → onceEq a b = false ∧ onceNe a b = true) ∧
    (itGood .array b = true → onceEq a b = true ∧ onceNe a b = false ∧ onceEq b a = false) := by
  unfold onceEq onceNe
  simp_all

/-- Non-vacuity: the end of `[1]` and the default constructed end; the end and the beginning. -/
example : onceEq { pos := [0x5D] } .default = false ∧ onceEq .default { pos := [0x31, 0x5D] } = true := by decide

/-- **C36, partial**: what holds for `json_array_iterator_once`.  An iterator with an element is different from one without,
if it is on the left; between iterators with elements `==` is equality of positions. -/
theorem C36_once_partial (a b : It) (ha : itGood .array a = true) :
    (itGood .array b = false → onceEq a b = false ∧ onceNe a b = true) ∧
    (itGood .array b = true → (onceEq a b = true ↔ a.pos.length = b.pos.length) ∧ onceNe a b = !onceEq a b) := by
  unfold onceEq onceNe
  simp_all [bne]

/-! ## C34, C52: splitting a JSON lines document -/

/-- **C34, partial.**  Splitting a document in `n` parts yields at most `n` chunks.  They are consecutive: together with the
gaps behind them they make up the document.  A gap consists only of what `trim_suffix` takes for whitespace, and
every chunk but the last, with its gap, ends at a newline.  (Chunks of whitespace only are left out.)  What is not as the
English says is that the gaps are lost: see `C34_concat_false`. -/
theorem C34_partition_partial (sp : UInt8 → Bool) (n : Nat) (doc : Bytes) :
    (partitionLines sp n doc).length ≤ max n 1 ∧
    ∃ ps : List (Bytes × Bytes), doc = ps.flatMap (fun p => p.1 ++ p.2) ∧
      (partitionLines sp n doc = (ps.map Prod.fst).filter (fun c => !c.isEmpty) ∨ (n ≤ 1 ∧ partitionLines sp n doc = [doc])) ∧
      (∀ p ∈ ps, ∀ c ∈ p.2, sp c = true) ∧
      (∀ p ∈ ps.dropLast, (p.1 ++ p.2).getLast? = some 0x0A) := by
  unfold partitionLines
  by_cases hn : n ≤ 1
  · rw [if_pos hn]
    exact ⟨by simp, [(doc, [])], by simp, Or.inr ⟨hn, rfl⟩, by simp, by simp⟩
  · rw [if_neg hn]
    obtain ⟨ps, h1, h2, h3, h4, -⟩ := partLoop_pieces sp (doc.length / n) doc.length doc (Nat.le_refl _)
    exact ⟨Nat.le_trans (partLoop_count sp n (by omega) doc) (Nat.le_max_left ..), ps, h1, Or.inl h2, h3, h4⟩

/-- The chunks alone do not make up the document: `1⏎2⏎` in four parts gives `1` and `2`. -/
theorem C34_concat_false :
    partitionLines (fun c => c == 0x20 || (0x09 ≤ c && c ≤ 0x0D)) 4 [0x31, 0x0A, 0x32, 0x0A] = [[0x31], [0x32]] := by
  decide +kernel

/-- Non-vacuity: `1⏎22⏎⏎3` in three parts, in one, and in nine. -/
example :
    partitionLines isSpace 3 [0x31, 0x0A, 0x32, 0x32, 0x0A, 0x0A, 0x33] = [[0x31, 0x0A, 0x32, 0x32], [0x0A, 0x33]] ∧
    partitionLines isSpace 1 [0x31, 0x0A, 0x32, 0x32, 0x0A, 0x0A, 0x33] = [[0x31, 0x0A, 0x32, 0x32, 0x0A, 0x0A, 0x33]] ∧
    partitionLines isSpace 9 [0x31, 0x0A, 0x32, 0x32, 0x0A, 0x0A, 0x33] = [[0x31], [0x32, 0x32], [0x33]] := by decide +kernel

/-- **C52.**  The chunks of a JSON lines document whose values stand on one line each are JSON lines documents, and their
values, one chunk after the other, are the values of the document.  The only thing required of `trim_suffix` is that it
removes nothing but whitespace. -/
theorem C52_chunks_hold_the_values (sp : UInt8 → Bool) (hsp : ∀ c, sp c = true → 1 ≤ c.toNat ∧ c.toNat ≤ 32) (n : Nat)
    (ds : List JVal) (hd : ∀ d ∈ ds, d.WF ∧ 0x0A ∉ d.text) (doc : Bytes) (hdoc : LinesDoc ds doc) :
    ∃ dss : List (List JVal), dss.flatten = ds ∧ dss.length = (partitionLines sp n doc).length ∧
      ∀ (i : Nat) (c : Bytes) (cs : List JVal), (partitionLines sp n doc)[i]? = some c → dss[i]? = some cs → LinesDoc cs c := by
  unfold partitionLines
  by_cases hn : n ≤ 1
  · rw [if_pos hn]
    refine ⟨[ds], by simp, rfl, fun i c cs hc hcs => ?_⟩
    cases i with
    | zero => simp at hc hcs; subst hc hcs; exact hdoc
    | succ i => simp at hc
  · rw [if_neg hn]
    exact partLoop_values (fun c hc => (isSpace_iff c).2 (hsp c hc)) _ _ doc (Nat.le_refl _) ds hd hdoc

/-- **C52, for `json_value` elements.**  Iterating over the chunks, one after the other, dereferencing every element once,
yields exactly the texts of the values of the document, in order.  (Not literals: see `C35_lines_false`.) -/
theorem C52_iterating_the_chunks (cfg : Cfg) (hck : cfg.checked = true) (sp : UInt8 → Bool)
    (hsp : ∀ c, sp c = true → 1 ≤ c.toNat ∧ c.toNat ≤ 32) (n : Nat)
    (ds : List JVal) (hd : ∀ d ∈ ds, (d.WF ∧ d.Fits) ∧ 0x0A ∉ d.text ∧ d.isLiteral = false) (doc : Bytes) (hdoc : LinesDoc ds doc) :
    ∃ outs : List (List Bytes), outs.flatten = ds.map JVal.text ∧ outs.length = (partitionLines sp n doc).length ∧
      ∀ (i : Nat) (c : Bytes) (out : List Bytes), (partitionLines sp n doc)[i]? = some c → outs[i]? = some out →
        ∃ it it', itMake cfg .lines c = .ok it ∧
          itWalk cfg .lines (rawOps cfg) (List.replicate out.length 1) it = .ok (out.map fun t => [t], it') ∧
          itGood .lines it' = false := by
  obtain ⟨dss, h1, h2, h3⟩ := C52_chunks_hold_the_values sp hsp n ds (fun d h => ⟨(hd d h).1.1, (hd d h).2.1⟩) doc hdoc
  refine ⟨dss.map (·.map JVal.text), by rw [← h1, List.map_flatten], by simp [h2], fun i c out hc ho => ?_⟩
  simp only [List.getElem?_map, Option.map_eq_some_iff] at ho
  obtain ⟨cs, hcs, rfl⟩ := ho
  have hm : ∀ d ∈ cs, d ∈ ds := fun d h => by
    rw [← h1]
    exact List.mem_flatten_of_mem (List.mem_of_getElem? hcs) h
  obtain ⟨it, it', h4, h5, h6⟩ := C35_lines_of_json_values_partial cfg hck cs (fun d h => (hd d (hm d h)).1)
    (fun d h => (hd d (hm d h)).2.2) c (h3 i c cs hc hcs) (List.replicate cs.length 1) (by simp)
  refine ⟨it, it', h4, ?_, ?_⟩
  · rw [List.length_map, h5]
    congr 2
    apply List.ext_getElem?
    intro j
    simp only [List.getElem?_zipWith, List.getElem?_map, List.getElem?_replicate]
    by_cases hj : j < cs.length
    · rw [if_pos hj, List.getElem?_eq_getElem hj]; rfl
    · rw [if_neg hj, List.getElem?_eq_none (by omega)]; rfl
  · rw [Bool.eq_false_iff]
    intro h
    have := h6.1 h
    simp at this

/-- Non-vacuity: `-12⏎[7]` in two parts. -/
example : ∃ outs : List (List Bytes), outs.flatten = [exNum.text, exSeven.text] ∧
    outs.length = (partitionLines isSpace 2 ([] ++ (exNum.text ++ ([0x0A] ++ (exSeven.text ++ []))))).length ∧
      ∀ (i : Nat) (c : Bytes) (out : List Bytes),
        (partitionLines isSpace 2 ([] ++ (exNum.text ++ ([0x0A] ++ (exSeven.text ++ [])))))[i]? = some c → outs[i]? = some out →
        ∃ it it', itMake {} .lines c = .ok it ∧
          itWalk {} .lines (rawOps {}) (List.replicate out.length 1) it = .ok (out.map fun t => [t], it') ∧
          itGood .lines it' = false :=
  C52_iterating_the_chunks {} rfl isSpace (fun c h => (isSpace_iff c).1 h) 2 [exNum, exSeven]
    (by simp only [List.mem_cons, List.not_mem_nil, or_false]
        rintro d (rfl | rfl)
        · exact ⟨⟨exNum_wf, by decide, by decide⟩, by decide, rfl⟩
        · exact ⟨⟨exSeven_wf, by decide, by decide⟩, by decide, rfl⟩) _
    (.cons ws_nil (.cons (by simp [IsWs, isWsByte]) (.nil ws_nil) (Or.inl rfl)) (Or.inr ⟨0x0A, _, rfl, by simp [IsWs, isWsByte]⟩))

end Verif
