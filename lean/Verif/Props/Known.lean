import Verif.Model.Known
import Verif.Props.Variant
import Verif.Props.Value
import Verif.Proof.StrAny
import Verif.Spec.Ascii

/-!
# C119: documents whose bounds are known

`from_json<T, true>( text )`, where `text` is exactly the text of one value: as `json_value::get_string_view` gives it, strings without
their quotes.
-/

namespace Verif

open Spec

/-- The types whose values begin with a bracket: arrays, maps and classes; no choice between several types. -/
def Spec.Bracketed (Δ : Env) : Ty → Prop
  | .arr _ | .map _ => True
  | .ref i => ∀ alts, Δ i ≠ .var alts
  | _ => False

/-- The text with a final zero byte removed, as it is seen by the parser. -/
theorem fromJsonKnown_plain (t : TCfg) (Δ : Env) (f : Nat) (ty : Ty) {bs : Bytes} (behind : Bytes) (hne : bs ≠ [])
    (h0 : bs.getLast? ≠ some 0) : fromJsonKnown t Δ f ty bs behind = parseK t Δ f ty (rootRange bs) behind := by
  unfold fromJsonKnown
  have he : bs.isEmpty = false := by simpa using hne
  rw [if_neg h0]
  simp only [he, Bool.not_false, ensure_true, Res.ok_bind]

theorem rootRange_inside (t : TCfg) (b : Bytes) : t.inside (rootRange b) = t := t.inside_unquoted rfl

/-- For arrays, maps and classes the two parsers do the same. -/
theorem parseK_root {t : TCfg} (hck : t.cfg.checked = true) {Δ : Env} (f : Nat) {ty : Ty} (hty : Bracketed Δ ty) (b after : Bytes) :
    parseK t Δ f ty (rootRange b) after = (parseU t Δ f ty b).bind fun p => .ok p.1 := by
  have hs : (rootRange b).seen t.cfg after = b := by simp [Range.seen, hck, rootRange]
  match f with
  | 0 => rfl
  | f + 1 =>
    match ty, hty with
    | .arr e, _ =>
      rw [parseK.eq_def t Δ (f + 1), parseU.eq_def t Δ (f + 1)]
      dsimp only
      rw [hs, rootRange_inside]
      cases parseArr t.cfg (parseU t Δ f e) b <;> rfl
    | .map e, _ =>
      rw [parseK.eq_def t Δ (f + 1), parseU.eq_def t Δ (f + 1)]
      dsimp only
      rw [hs, rootRange_inside]
      cases parseMap t.cfg (parseU t Δ f e) b <;> rfl
    | .ref i, hi =>
      rw [parseK.eq_def t Δ (f + 1), parseU.eq_def t Δ (f + 1)]
      dsimp only
      rw [hs, rootRange_inside]
      have ht : (rootRange b).text = b := rfl
      rw [ht]
      match hd : Δ i with
      | .obj ms ex =>
        dsimp only
        cases assertWeak t.cfg.checked (!b.isEmpty) .unexpectedEndOfData <;> try rfl
        simp only [Res.ok_bind]
        cases parseObj t (ex || t.exactAll) ms (parseU t Δ f) (parseK t Δ f) b <;> rfl
      | .tup ts ex =>
        dsimp only
        cases parseTup t.cfg (ex || t.exactAll) ts (parseU t Δ f) b <;> rfl
      | .ord ms ex =>
        dsimp only
        cases assertWeak t.cfg.checked (!b.isEmpty) .unexpectedEndOfData <;> try rfl
        simp only [Res.ok_bind]
        cases parseOrd t.cfg (ex || t.exactAll) ms (parseU t Δ f) b <;> rfl
      | .var alts => exact absurd hd (hi alts)
      | .ivar tag sw alts =>
        dsimp only
        cases assertWeak t.cfg.checked (!b.isEmpty) .unexpectedEndOfData <;> try rfl
        simp only [Res.ok_bind]
        cases parseObj t t.exactAll [tag] (parseU t Δ f) (parseK t Δ f) b <;> try rfl
        simp only [Res.ok_bind]
        rename_i p
        cases altOfTag t.cfg sw alts p.1 <;> try rfl
        simp only [Res.ok_bind]
        rename_i a
        cases parseU t Δ f a.2 b <;> rfl

/-- **C119, arrays, maps and classes.**  On every text, valid or not, and whatever stands behind it, the outcome is that of `from_json<T>`:
the same value, the same error; nothing behind the text is looked at. -/
theorem C119_containers (t : TCfg) (hck : t.cfg.checked = true) (hv : t.verifyEnd = false) (Δ : Env) (f : Nat) (ty : Ty)
    (hty : Bracketed Δ ty) (bs behind : Bytes) : fromJsonKnown t Δ f ty bs behind = fromJson t Δ f ty bs := by
  unfold fromJsonKnown fromJson
  dsimp only
  by_cases he : bs.isEmpty = true
  · rw [he]; rfl
  · have he' : bs.isEmpty = false := by simpa using he
    simp only [he', Bool.not_false, ensure_true, Res.ok_bind]
    by_cases h0 : bs.getLast? = some 0
    · rw [if_pos h0, if_pos h0, parseK_root hck f hty]
      cases parseU t Δ f ty bs.dropLast <;> simp only [Res.ok_bind, Res.err_bind, Res.ub_bind, hv] <;> rfl
    · rw [if_neg h0, if_neg h0, parseK_root hck f hty]
      cases parseU t Δ f ty bs <;> simp only [Res.ok_bind, Res.err_bind, Res.ub_bind, hv] <;> rfl

/-- Non-vacuity: `[1]` in front of a comma, and text that is no array. -/
example : fromJsonKnown {} exEnv 9 (.arr (.int exI32 false)) asc! "[1]" asc! ",2" = .ok (.arr [.int 1]) ∧
    fromJsonKnown {} exEnv 9 (.arr (.int exI32 false)) asc! "[1" asc! "]" = fromJson {} exEnv 9 (.arr (.int exI32 false)) asc! "[1" := by
  rw [C119_containers _ rfl rfl _ _ (.arr _) trivial, C119_containers _ rfl rfl _ _ (.arr _) trivial]
  decide +kernel

theorem numeral_ends {txt : Bytes} {v : Int} (h : IsNumeral txt v) : txt ≠ [] ∧ txt.getLast? ≠ some 0 := by
  have hd : ∀ ds : Bytes, IsInt ds → ds ≠ [] ∧ (0 : UInt8) ∉ ds := by
    intro ds hi
    have hdig := isDigits_of_isInt hi
    exact ⟨hdig.1, fun h0 => absurd (hdig.2 0 h0) (by unfold IsDig; decide)⟩
  have hl : ∀ l : Bytes, (0 : UInt8) ∉ l → l.getLast? ≠ some 0 := fun l hn h => hn (List.mem_of_getLast? h)
  unfold IsNumeral at h
  split at h
  · obtain ⟨ds, rfl, h1, -⟩ := h
    exact ⟨by simp, hl _ (by
      intro hm
      rcases List.mem_cons.1 hm with h0 | h0
      · exact absurd h0 (by decide)
      · exact (hd ds h1).2 h0)⟩
  · exact ⟨(hd _ h.1).1, hl _ (hd _ h.1).2⟩

/-- **C119, integers.**  The text of an integer in the range of its type is read as that integer, whatever follows; in all modes. -/
theorem C119_integer (t : TCfg) (Δ : Env) (f : Nat) (it : IntTy) (hit : it.Valid) (v : Int) (hv : it.InRange v) (rc : Bool) (txt behind : Bytes)
    (hx : IsNumeral txt v) : fromJsonKnown t Δ (f + 1) (.int it rc) txt behind = .ok (.int v) := by
  obtain ⟨hne, h0⟩ := numeral_ends hx
  rw [fromJsonKnown_plain t Δ _ _ behind hne h0]
  unfold parseK
  dsimp only
  rw [rootRange_inside, show (rootRange txt).text = txt from rfl, parseIntKnown_numeral t.cfg it hit v hv rc txt hx]
  rfl

/-- Non-vacuity. -/
example : fromJsonKnown {} exEnv 1 (.int exI32 false) asc! "-12" asc! "345" = .ok (.int (-12)) :=
  C119_integer {} exEnv 0 exI32 (by decide) (-12) (by decide) false _ _ ⟨asc! "12", rfl, Or.inr ⟨⟨by simp, by simp [IsDig, UInt8.le_iff_toNat_le]⟩, by simp⟩, by decide⟩

/-- **C119, booleans.**  With checks. -/
theorem C119_boolean_partial (t : TCfg) (hck : t.cfg.checked = true) (Δ : Env) (f : Nat) (b : Bool) (behind : Bytes) :
    fromJsonKnown t Δ (f + 1) .bool (if b then asc! "true" else asc! "false") behind = .ok (.bool b) := by
  rw [fromJsonKnown_plain t Δ _ _ behind (by cases b <;> decide) (by cases b <;> decide)]
  unfold parseK parseBoolKnown
  dsimp only
  rw [rootRange_inside, hck]
  cases b <;> rfl

theorem unesc_no_zero {b s : Bytes} (h : Unesc b s) : (0 : UInt8) ∉ b := by
  have hx : ∀ {x : UInt8}, IsHex x → ¬ (0 : UInt8) = x := by
    rintro x h rfl
    revert h
    unfold IsHex IsDig
    decide
  induction h with
  | nil => simp
  | plain h1 h2 h3 _ ih =>
    simp only [List.mem_cons, not_or]
    refine ⟨?_, ih⟩
    rintro rfl
    exact absurd h1 (by decide)
  | esc h1 _ ih =>
    simp only [List.mem_cons, not_or]
    refine ⟨by decide, ?_, ih⟩
    rintro rfl
    revert h1
    unfold isSimpleEsc
    decide
  | uni h1 h2 h3 h4 _ _ ih =>
    simp only [List.mem_cons, not_or]
    exact ⟨by decide, by decide, hx h1, hx h2, hx h3, hx h4, ih⟩
  | pair h1 h2 h3 h4 h5 h6 h7 h8 _ _ _ ih =>
    simp only [List.mem_cons, not_or]
    exact ⟨by decide, by decide, hx h1, hx h2, hx h3, hx h4, by decide, by decide, hx h5, hx h6, hx h7, hx h8, ih⟩

/-- **C119, strings.**  The body of a string, followed in memory by its closing quote, is read as the string it means; in all modes. -/
theorem C119_string_partial (t : TCfg) (Δ : Env) (f : Nat) (ah : Bool) (b s c : Bytes) (h : Unesc b s) (hne : b ≠ []) :
    fromJsonKnown t Δ (f + 1) (.str ah) b (chQuote :: c) = .ok (.str s) := by
  have h0 : b.getLast? ≠ some 0 := fun hm => unesc_no_zero h (List.mem_of_getLast? hm)
  rw [fromJsonKnown_plain t Δ _ _ _ hne h0]
  have hslen := unesc_length h
  have key : parseStrRange t.cfg ah (rootRange b) (chQuote :: c) = .ok s := by
    unfold parseStrRange
    have hn : (!ah || needsSlowPath (rootRange b).counter) = true := by simp [needsSlowPath, rootRange]
    rw [if_pos hn]
    unfold parseStdString
    obtain ⟨x, xs, rfl⟩ := List.exists_cons_of_ne_nil hne
    have hx : x ≠ chQuote := by
      cases h <;> simp_all
    have hq : (x == chQuote) = false := by simpa using hx
    simp only [rootRange, List.cons_append, deref, Res.ok_bind, hq, Bool.false_eq_true, if_false]
    rw [if_neg (by simp)]
    have := strLoop_body t.cfg ah false ((x :: xs).length + 1) (chQuote :: c).length c (by simp) (by simp) (x :: xs) s [] h (by simp at hslen ⊢; omega)
    simpa using this
  unfold parseK
  dsimp only
  rw [key]
  rfl

/-- Non-vacuity: `a\nb` inside of a document. -/
example : fromJsonKnown {} exEnv 1 (.str true) [0x61, 0x5C, 0x6E, 0x62] asc! "\",\"c\"]" = .ok (.str [0x61, 0x0A, 0x62]) :=
  C119_string_partial {} exEnv 0 true [0x61, 0x5C, 0x6E, 0x62] [0x61, 0x0A, 0x62] asc! ",\"c\"]"
    (.plain (by decide) (by decide) (by decide) (.esc (by unfold isSimpleEsc; decide) (.plain (by decide) (by decide) (by decide) .nil))) (by decide)

/-! ## What strings need behind them -/

/-- **C119, strings, bounds.**  If the next quote or backslash behind the text is a quote, nothing behind that quote is looked at, for every text, valid or not:
there is no undefined behaviour. -/
theorem C119_string_in_bounds_partial (t : TCfg) (hck : t.cfg.checked = true) (Δ : Env) (f : Nat) (ah : Bool) (b behind : Bytes) (hne : b ≠ [])
    (hb : ∃ p s, behind = p ++ chQuote :: s ∧ ∀ x ∈ p, x ≠ chQuote ∧ x ≠ chBslash) :
    fromJsonKnown t Δ (f + 1) (.str ah) b behind ≠ .ub := by
  have hb' : QuoteAhead behind := by
    obtain ⟨p, s, h1, h2⟩ := hb
    exact ⟨p, s, h1, fun x hx => by have := h2 x hx; tauto⟩
  have hb0 : QuoteAhead (0 :: behind) := by
    obtain ⟨p, s, rfl, h2⟩ := hb'
    exact ⟨0 :: p, s, rfl, fun x hx => by
      rcases List.mem_cons.1 hx with rfl | hx
      · decide
      · exact h2 x hx⟩
  have key : ∀ x a, QuoteAhead a → parseK t Δ (f + 1) (.str ah) (rootRange x) a ≠ .ub := by
    intro x a ha
    have h1 : parseStrRange t.cfg ah (rootRange x) a ≠ .ub := by
      unfold parseStrRange
      have hn : (!ah || needsSlowPath (rootRange x).counter) = true := by simp [needsSlowPath, rootRange]
      rw [if_pos hn]
      exact parseStdString_any hck ah _ _ ha (fun _ => Nat.zero_le _)
    unfold parseK
    dsimp only
    cases h2 : parseStrRange t.cfg ah (rootRange x) a with
    | ok v => simp
    | err e => simp
    | ub => exact absurd h2 h1
  unfold fromJsonKnown
  have he : b.isEmpty = false := by simpa using hne
  simp only [he, Bool.not_false, ensure_true, Res.ok_bind]
  by_cases h0 : b.getLast? = some 0
  · rw [if_pos h0]
    exact key _ _ hb0
  · rw [if_neg h0]
    exact key _ _ hb'

/-- Non-vacuity: a backslash at the end of the text, and `x"` behind it. -/
example : fromJsonKnown {} exEnv 1 (.str true) [0x61, 0x5C] asc! "x\"" ≠ .ub :=
  C119_string_in_bounds_partial {} rfl exEnv 0 true _ _ (by decide) ⟨asc! "x", [], rfl, by decide⟩

theorem plainRun_all {b : Bytes} (h : ∀ x ∈ b, x ≠ chQuote ∧ x ≠ chBslash) : plainRun b = (b, []) := by
  induction b with
  | nil => rfl
  | cons c cs ih =>
    have hc := h c (by simp)
    unfold plainRun
    rw [if_neg (by tauto), ih (fun x hx => h x (by simp [hx]))]

/-- **C119 is false for strings.**  A text without escapes, which is the usual case, is read up to the next quote or backslash behind it: if memory ends before
one comes, the read leaves it.  This is so for every such text, with checks and without. -/
theorem C119_string_false (t : TCfg) (Δ : Env) (f : Nat) (ah : Bool) (b behind : Bytes) (hne : b ≠ []) (h0 : b.getLast? ≠ some 0)
    (hb : ∀ x ∈ b ++ behind, x ≠ chQuote ∧ x ≠ chBslash) : fromJsonKnown t Δ (f + 1) (.str ah) b behind = .ub := by
  rw [fromJsonKnown_plain t Δ _ _ _ hne h0]
  have key : parseStrRange t.cfg ah (rootRange b) behind = .ub := by
    unfold parseStrRange
    have hn : (!ah || needsSlowPath (rootRange b).counter) = true := by simp [needsSlowPath, rootRange]
    rw [if_pos hn]
    unfold parseStdString
    obtain ⟨x, xs, rfl⟩ := List.exists_cons_of_ne_nil hne
    have hx := (hb x (by simp)).1
    have hq : (x == chQuote) = false := by simpa using hx
    simp only [rootRange, List.cons_append, deref, Res.ok_bind, hq, Bool.false_eq_true, if_false]
    rw [if_neg (by simp)]
    have hm : strMore t.cfg behind.length (x :: (xs ++ behind)) = .ok true := strMore_cons t.cfg hx (by simp; omega)
    have hs : strStep t.cfg ah false ((x :: xs).length + 1) behind.length (x :: (xs ++ behind)) [] = .ub := by
      unfold strStep
      rw [plainRun_all (by simpa using hb)]
      rfl
    rw [strLoop.eq_def]
    split
    · simp_all
    · simp_all
    · simp_all
    · split <;> simp_all
  unfold parseK
  dsimp only
  rw [key]
  rfl

/-- Non-vacuity: `abc`. -/
example : fromJsonKnown {} exEnv 1 (.str true) asc! "abc" [] = .ub :=
  C119_string_false {} exEnv 0 true _ [] (by decide) (by decide) (by decide)

/-- **C119 is false.**  Where a zero byte and a quote follow the text of a string, the zero byte becomes part of it; `1.5` and `15` are read as other reals (the
first character is taken for the decimal point); `null` is not read as an empty optional but rejected; without checks `true` is read as false. -/
theorem C119_false :
    fromJsonKnown {} exEnv 1 (.str true) asc! "abc" ([0] ++ asc! "\"") = .ok (.str (asc! "abc" ++ [0])) ∧
    fromJsonKnown {} exEnv 1 (.txt (.real true .auto)) asc! "15" [] = .ok (.real ⟨false, 5, -1⟩) ∧
    fromJsonKnown {} exEnv 1 (.txt (.real true .auto)) asc! "1.5" [] = .ok (.real ⟨false, 2545, -2⟩) ∧
    fromJson {} exEnv 2 (.opt (.int exI32 false)) asc! "null" = .ok .none ∧
    fromJsonKnown {} exEnv 2 (.opt (.int exI32 false)) asc! "null" [] = .err .invalidNumberStart ∧
    fromJsonKnown { cfg := { checked := false } } exEnv 1 .bool asc! "true" [] = .ok (.bool false) := by
  decide +kernel

/-! ## Together with `json_value` -/

/-- **C119, members of a `json_value`.**  The members or elements of a value, visited in order, and from the `string_view` of each `from_json<T, true>` reads what the
document means there: a string (not the empty one), and whatever an array, map or class is read as.  `jv.drop` is what follows the view in memory. -/
theorem C119_of_json_value_partial (t : TCfg) (hck : t.cfg.checked = true) (hv : t.verifyEnd = false) (Δ : Env) (henv : EnvOk Δ) (d : JVal)
    (hc : d.isContainer = true) (hd : d.WF) (hf : d.Fits) (hn : d.NamesOk t.escNames) (k : Bytes) :
    ∃ it ps, jvBegin t.cfg (d.text ++ k) = .ok it ∧ iterAll t it = .ok ps ∧ ps.length = d.items.length ∧
      ∀ (i : Nat) (n : Option Bytes) (e : JVal), d.items[i]? = some (n, e) → ∃ jv, ps[i]? = some (n, jv) ∧
        (∀ b s, e = .str b → Unesc b s → b ≠ [] → ∃ view, jvStringView t.cfg jv = .ok view ∧
          ∀ ah f, fromJsonKnown t Δ (f + 1) (.str ah) view (jv.drop (1 + view.length)) = .ok (.str s)) ∧
        (∀ ty v, Bracketed Δ ty → e ≠ .null → e.kind ≠ .string → Reads Δ (Usable t) t.exactAll ty e v → v.bare = false →
          ∃ view, jvStringView t.cfg jv = .ok view ∧ ∃ f0, ∀ f, f0 ≤ f → fromJsonKnown t Δ f ty view (jv.drop view.length) = .ok v) := by
  obtain ⟨it, ps, h1, h2, h3, h4⟩ := C26_iteration_partial t hck d hc hd hf hn k
  refine ⟨it, ps, h1, h2, h3, fun i n e hi => ?_⟩
  obtain ⟨k', h5, -, -, h6, h7⟩ := h4 i n e hi
  refine ⟨_, h5, fun b s hb hs hne => ?_, fun ty v hty hnull hstr hr hb => ?_⟩
  · refine ⟨b, h6 b hb, fun ah f => ?_⟩
    have hdrop : (e.text ++ k').drop (1 + b.length) = chQuote :: k' := by
      subst hb
      have : (JVal.str b).text ++ k' = (chQuote :: b) ++ chQuote :: k' := by simp [JVal.text]
      rw [this, List.drop_left' (by simp; omega)]
    rw [hdrop]
    exact C119_string_partial t Δ f ah b s k' hs hne
  · obtain ⟨he, -⟩ := items_ok (dok_of hd hf) hn _ (List.mem_of_getElem? hi)
    obtain ⟨f0, hf0⟩ := fromJson_doc hck henv usable_nameOk rfl hr he (endsWell_of hb)
    refine ⟨e.text, h7 hnull hstr, f0, fun f hf => ?_⟩
    rw [C119_containers t hck hv Δ f ty hty]
    exact hf0 f hf

/-- Non-vacuity: the member `"x":[7]` of the document of `Props.Typed`, read as an array of integers from its text. -/
example : ∃ it ps jv view f, jvBegin {} (exDoc.text ++ []) = .ok it ∧ iterAll {} it = .ok ps ∧ ps[0]? = some (some [0x78], jv) ∧
    jvStringView {} jv = .ok view ∧ fromJsonKnown {} exEnv f (.arr (.int exI32 false)) view (jv.drop view.length) = .ok (.arr [.int 7]) := by
  obtain ⟨it, ps, h1, h2, -, h4⟩ := C119_of_json_value_partial {} rfl rfl exEnv exEnv_ok exDoc rfl exDoc_wf exDoc_fits (exDoc_names _) []
  obtain ⟨jv, h5, -, h6⟩ := h4 0 (some [0x78]) exSeven rfl
  have h7 : IsNumeral [0x37] 7 := ⟨Or.inr ⟨⟨by simp, by simp [IsDig, UInt8.le_iff_toNat_le]⟩, by simp⟩, by decide⟩
  obtain ⟨view, h8, f0, h9⟩ := h6 (.arr (.int exI32 false)) (.arr [.int 7]) trivial (by simp [exSeven]) (by simp [exSeven, JVal.kind])
    (.arr (by simp) (.cons (.int (by decide) (by decide) h7) .nil)) rfl
  exact ⟨it, ps, jv, view, f0, h1, h2, h5, h8, h9 f0 (Nat.le_refl _)⟩

/-- Non-vacuity: the string in `["ab",1]`, by evaluating the model. -/
example : ∃ it ps view, jvBegin {} (asc! "[\"ab\",1]") = .ok it ∧ iterAll {} it = .ok ps ∧ ps[0]? = some (none, asc! "\"ab\",1]") ∧
    jvStringView {} (asc! "\"ab\",1]") = .ok view ∧
    fromJsonKnown {} exEnv 1 (.str true) view ((asc! "\"ab\",1]").drop (1 + view.length)) = .ok (.str asc! "ab") :=
  ⟨⟨chLBrack, asc! "\"ab\",1]"⟩, [(none, asc! "\"ab\",1]"), (none, asc! "1]")], asc! "ab", by decide +kernel⟩

end Verif
