import Verif.Props.Literal

/-!
# C93, C94: whitespace in front of a document, and `from_json_array`
-/

namespace Verif

open Spec

/-! ## C93 -/

/-- The types whose documents may start with whitespace: arrays, classes, tuples and ordered classes, variants by a tag all of whose
alternatives are such types, and nullable values of them. -/
inductive Spec.Opened (Δ : Env) : Ty → Prop
  | arr (ty : Ty) : Opened Δ (.arr ty)
  | obj {i : Nat} {ms : List Member} {ex : Bool} (h : Δ i = .obj ms ex) : Opened Δ (.ref i)
  | tup {i : Nat} {ts : List Ty} {ex : Bool} (h : Δ i = .tup ts ex) : Opened Δ (.ref i)
  | ord {i : Nat} {ms : List (Option Nat × Ty)} {ex : Bool} (h : Δ i = .ord ms ex) : Opened Δ (.ref i)
  | ivar {i : Nat} {tag : Member} {sw : Val → Nat} {alts : List Ty} (h : Δ i = .ivar tag sw alts) (ha : ∀ ty ∈ alts, Opened Δ ty) :
      Opened Δ (.ref i)
  | opt {ty : Ty} (h : Opened Δ ty) : Opened Δ (.opt ty)

/-- The types whose documents must not: booleans, numbers, strings, text, maps, variants by the kind of JSON value, and nullable values
of them. -/
inductive Spec.Bare (Δ : Env) : Ty → Prop
  | bool : Bare Δ .bool
  | int (it : IntTy) (rc : Bool) : Bare Δ (.int it rc)
  | str (ah : Bool) : Bare Δ (.str ah)
  | txt (k : TxtKind) : Bare Δ (.txt k)
  | map (ty : Ty) : Bare Δ (.map ty)
  | var {i : Nat} {alts : List Ty} (h : Δ i = .var alts) : Bare Δ (.ref i)
  | opt {ty : Ty} (h : Bare Δ ty) : Bare Δ (.opt ty)

/-- The first character opens an array or an object. -/
def Spec.OpensWith (s : Bytes) : Prop := ∃ r, s = chLBrack :: r ∨ s = chLBrace :: r

theorem Spec.OpensWith.trims {w s : Bytes} (hw : IsWs w) (h : OpensWith s) (cfg : Cfg) : trim cfg (w ++ s) = .ok s ∧ trim cfg s = .ok s := by
  have h1 : trimChecked s = s := by
    obtain ⟨r, rfl | rfl⟩ := h <;> rfl
  have h2 : s ≠ [] := by
    obtain ⟨r, rfl | rfl⟩ := h <;> simp
  exact ⟨trim_of (by rw [trimChecked_ws w s hw, h1]) h2, trim_of h1 h2⟩

theorem eatNull_opens {w s : Bytes} (hw : IsWs w) (hs : OpensWith s) (cfg : Cfg) :
    eatNull cfg (w ++ s) = .ok none ∧ eatNull cfg s = .ok none := by
  have h : ∀ r, eatNull cfg (chLBrack :: r) = .ok none ∧ eatNull cfg (chLBrace :: r) = .ok none := by
    intro r; cases hc : cfg.checked <;> simp [eatNull, hc, headIs, isTokenAfterValue, List.isPrefixOf]
  have h' : eatNull cfg s = .ok none := by
    obtain ⟨r, rfl | rfl⟩ := hs
    · exact (h r).1
    · exact (h r).2
  refine ⟨?_, h'⟩
  cases w with
  | nil => exact h'
  | cons c cs =>
    rcases hw c (List.mem_cons_self ..) with rfl | rfl | rfl | rfl <;> cases hc : cfg.checked <;>
      simp [eatNull, hc, headIs, isTokenAfterValue, List.isPrefixOf]

theorem eatNullZ_opens {w s : Bytes} (hw : IsWs w) (hs : OpensWith s) :
    eatNullZ 0 (w ++ s) = .ok none ∧ eatNullZ 0 s = .ok none := by
  have h : ∀ r, eatNullZ 0 (chLBrack :: r) = .ok none ∧ eatNullZ 0 (chLBrace :: r) = .ok none := by
    intro r; simp [eatNullZ, frontZ, moreZ, beforeZ, isTokenAfterValue, List.isPrefixOf]
  have h' : eatNullZ 0 s = .ok none := by
    obtain ⟨r, rfl | rfl⟩ := hs
    · exact (h r).1
    · exact (h r).2
  refine ⟨?_, h'⟩
  cases w with
  | nil => exact h'
  | cons c cs =>
    rcases hw c (List.mem_cons_self ..) with rfl | rfl | rfl | rfl <;>
      simp [eatNullZ, frontZ, moreZ, beforeZ, isTokenAfterValue, List.isPrefixOf]

theorem altOfTag_in {cfg : Cfg} {sw : Val → Nat} {alts : List Ty} {x : Val} {a : Nat × Ty} (h : altOfTag cfg sw alts x = .ok a) :
    a.2 ∈ alts := by
  unfold altOfTag at h
  split at h
  · split at h
    · rename_i ty hty
      injection h with h; subst h
      exact List.mem_of_getElem? hty
    · split at h <;> cases h
  · cases h

theorem parseU_lead (t : TCfg) (Δ : Env) {ty : Ty} (ho : Opened Δ ty) (w s : Bytes) (hw : IsWs w) (hs : OpensWith s) (f : Nat) :
    parseU t Δ f ty (w ++ s) = parseU t Δ f ty s := by
  obtain ⟨h1, h2⟩ := hs.trims hw t.cfg
  have hne : s.isEmpty = false := by obtain ⟨r, rfl | rfl⟩ := hs <;> rfl
  have hne' : (w ++ s).isEmpty = false := by obtain ⟨r, rfl | rfl⟩ := hs <;> cases w <;> rfl
  induction ho generalizing f with
  | arr ty => cases f with
    | zero => rfl
    | succ f => rw [parseU, parseU]; unfold parseArr; rw [h1, h2]
  | obj h => cases f with
    | zero => rfl
    | succ f => rw [parseU, parseU]; simp only [h]; unfold parseObj; rw [h1, h2, hne, hne']
  | tup h => cases f with
    | zero => rfl
    | succ f => rw [parseU, parseU]; simp only [h]; unfold parseTup; rw [h1, h2]
  | ord h => cases f with
    | zero => rfl
    | succ f => rw [parseU, parseU]; simp only [h]; unfold parseOrd; rw [h1, h2, hne, hne']
  | @ivar i tag sw alts h ha ih => cases f with
    | zero => rfl
    | succ f =>
      rw [parseU, parseU]; simp only [h]
      have hp : ∀ pU pK, parseObj t t.exactAll [tag] pU pK (w ++ s) = parseObj t t.exactAll [tag] pU pK s := by
        intro pU pK; unfold parseObj; rw [h1, h2]
      rw [hp, hne, hne']
      cases parseObj t t.exactAll [tag] (parseU t Δ f) (parseK t Δ f) s with
      | ub => rfl
      | err e => rfl
      | ok x =>
        simp only [Res.ok_bind]
        cases hx : altOfTag t.cfg sw alts x.1 with
        | ub => rfl
        | err e => rfl
        | ok a => simp only [Res.ok_bind]; rw [ih a.2 (altOfTag_in hx)]
  | opt h ih => cases f with
    | zero => rfl
    | succ f =>
      rw [parseU, parseU, ih, (eatNull_opens hw hs t.cfg).1, (eatNull_opens hw hs t.cfg).2]

theorem parseUZ_lead (t : TCfg) (Δ : Env) {ty : Ty} (ho : Opened Δ ty) (w s : Bytes) (hw : IsWs w) (hs : OpensWith s) (f : Nat) :
    parseUZ t Δ f ty 0 (w ++ s) = parseUZ t Δ f ty 0 s := by
  have h1 : trimChecked (w ++ s) = s := by
    rw [trimChecked_ws w s hw]; obtain ⟨r, rfl | rfl⟩ := hs <;> rfl
  have h2 : trimChecked s = s := by
    obtain ⟨r, rfl | rfl⟩ := hs <;> rfl
  have hne : moreZ 0 s = true := by obtain ⟨r, rfl | rfl⟩ := hs <;> simp [moreZ]
  have hne' : moreZ 0 (w ++ s) = true := by obtain ⟨r, rfl | rfl⟩ := hs <;> simp [moreZ]
  induction ho generalizing f with
  | arr ty => cases f with
    | zero => rfl
    | succ f => rw [parseUZ, parseUZ]; unfold parseArrZ; rw [h1, h2]
  | obj h => cases f with
    | zero => rfl
    | succ f => rw [parseUZ, parseUZ]; simp only [h]; unfold parseObjZ; rw [h1, h2, hne, hne']
  | tup h => cases f with
    | zero => rfl
    | succ f => rw [parseUZ, parseUZ]; simp only [h]; unfold parseTupZ; rw [h1, h2]
  | ord h => cases f with
    | zero => rfl
    | succ f => rw [parseUZ, parseUZ]; simp only [h]; unfold parseOrdZ; rw [h1, h2, hne, hne']
  | @ivar i tag sw alts h ha ih => cases f with
    | zero => rfl
    | succ f =>
      rw [parseUZ, parseUZ]; simp only [h]
      have hp : ∀ pU pK, parseObjZ t t.exactAll [tag] pU pK 0 (w ++ s) = parseObjZ t t.exactAll [tag] pU pK 0 s := by
        intro pU pK; unfold parseObjZ; rw [h1, h2]
      rw [hp, hne, hne']
      cases parseObjZ t t.exactAll [tag] (parseUZ t Δ f) (parseKZ t Δ f) 0 s with
      | ub => rfl
      | err e => rfl
      | ok x =>
        simp only [Res.ok_bind]
        cases hx : altOfTag t.cfg sw alts x.1 with
        | ub => rfl
        | err e => rfl
        | ok a => simp only [Res.ok_bind]; rw [ih a.2 (altOfTag_in hx)]
  | opt h ih => cases f with
    | zero => rfl
    | succ f =>
      rw [parseUZ, parseUZ, ih, (eatNullZ_opens hw hs).1, (eatNullZ_opens hw hs).2]

theorem Spec.OpensWith.dropNul {w s : Bytes} (h : OpensWith s) :
    (if (w ++ s).getLast? = some 0 then (w ++ s).dropLast else w ++ s) = w ++ (if s.getLast? = some 0 then s.dropLast else s) ∧
      OpensWith (if s.getLast? = some 0 then s.dropLast else s) := by
  have hne : s ≠ [] := by obtain ⟨r, rfl | rfl⟩ := h <;> simp
  refine ⟨?_, ?_⟩
  · rw [List.getLast?_append_of_ne_nil _ hne, List.dropLast_append_of_ne_nil hne]
    split <;> rfl
  · split
    · rename_i hl
      obtain ⟨r, rfl | rfl⟩ := h <;> cases r <;> simp_all [OpensWith]
    · exact h

/-- **C93 for arrays, classes and tuples.**  Whitespace in front of a text that begins with a bracket or brace changes nothing, whatever the text
is: the value or error is the one without it. -/
theorem C93_leading_whitespace_partial (t : TCfg) (Δ : Env) (ty : Ty) (ho : Opened Δ ty) (f : Nat) (w s : Bytes) (hw : IsWs w)
    (hs : OpensWith s) : fromJson t Δ f ty (w ++ s) = fromJson t Δ f ty s ∧ fromJsonZ t Δ f ty (w ++ s) = fromJsonZ t Δ f ty s := by
  obtain ⟨h1, h2⟩ := hs.dropNul (w := w)
  have hne : s.isEmpty = false := by obtain ⟨r, rfl | rfl⟩ := hs <;> rfl
  have hne' : (w ++ s).isEmpty = false := by obtain ⟨r, rfl | rfl⟩ := hs <;> cases w <;> rfl
  refine ⟨?_, ?_⟩
  · unfold fromJson; dsimp only; rw [h1, parseU_lead t Δ ho w _ hw h2, hne, hne']
  · unfold fromJsonZ; dsimp only; rw [h1, parseUZ_lead t Δ ho w _ hw h2, hne, hne']

theorem isDigit_ws : isDigit 0x20 = false ∧ isDigit 0x09 = false ∧ isDigit 0x0A = false ∧ isDigit 0x0D = false := by decide

set_option linter.unusedSimpArgs false in
theorem parseU_bare (t : TCfg) (hck : t.cfg.checked = true) (Δ : Env) {ty : Ty} (hb : Bare Δ ty) (c : UInt8) (hc : isWsByte c) (s : Bytes) :
    ∃ f0, ∀ f, f0 ≤ f → ∃ e, parseU t Δ f ty (c :: s) = .err e := by
  induction hb with
  | bool =>
    refine ⟨1, fun f hf => ?_⟩
    obtain ⟨f, rfl⟩ := Nat.exists_eq_succ_of_ne_zero (by omega : f ≠ 0)
    rw [parseU]
    rcases hc with rfl | rfl | rfl | rfl <;> simp [parseBool, eatBool, hck, List.isPrefixOf]
  | int it rc =>
    refine ⟨1, fun f hf => ?_⟩
    obtain ⟨f, rfl⟩ := Nat.exists_eq_succ_of_ne_zero (by omega : f ≠ 0)
    rw [parseU]
    cases hsg : it.signed <;> rcases hc with rfl | rfl | rfl | rfl <;>
      simp [parseInt, hsg, parseSigned, parseUnsigned, validateSignedFirst, hck, isDigit_ws, whenChecked, assertWeak, ensure]
  | str ah =>
    refine ⟨1, fun f hf => ?_⟩
    obtain ⟨f, rfl⟩ := Nat.exists_eq_succ_of_ne_zero (by omega : f ≠ 0)
    rw [parseU]
    rcases hc with rfl | rfl | rfl | rfl <;> simp [parseStr, skipString, ensure]
  | txt k =>
    refine ⟨1, fun f hf => ?_⟩
    obtain ⟨f, rfl⟩ := Nat.exists_eq_succ_of_ne_zero (by omega : f ≠ 0)
    rw [parseU]
    cases k with
    | rawStr ah => rcases hc with rfl | rfl | rfl | rfl <;> simp [parseTxt, skipString, ensure]
    | date => rcases hc with rfl | rfl | rfl | rfl <;> simp [parseTxt, parseDate, skipString, ensure, assertWeak]
    | custom k =>
      cases k <;> rcases hc with rfl | rfl | rfl | rfl <;>
        simp [parseTxt, parseCustom, customText, skipString, skipLiteral, skipValue, isDigit_ws, hck, ensure, assertWeak]
    | raw => rcases hc with rfl | rfl | rfl | rfl <;> simp [parseTxt, skipValue, isDigit_ws, hck, ensure, assertWeak]
    | real dbl fmt =>
      rcases hc with rfl | rfl | rfl | rfl <;>
        simp [parseTxt, parseReal, realUnknown, isNumberStart, isDigit_ws, Cfg.real, hck, ensure, assertWeak]
    | quoted al l =>
      cases l with
      | bool =>
        cases al <;> rcases hc with rfl | rfl | rfl | rfl <;>
          simp [parseTxt, parseLit, parseBoolQ, skipQuote, headIs, eatBool, List.isPrefixOf, hck, ensure, assertWeak]
      | int it rc =>
        cases al <;> cases hsg : it.signed <;> rcases hc with rfl | rfl | rfl | rfl <;>
          simp [parseTxt, parseLit, hsg, parseSignedQ, parseUnsignedQ, skipQuote, headIs, validateSignedFirst, isDigit_ws, whenChecked, hck,
            ensure, assertWeak]
  | map ty =>
    refine ⟨1, fun f hf => ?_⟩
    obtain ⟨f, rfl⟩ := Nat.exists_eq_succ_of_ne_zero (by omega : f ≠ 0)
    rw [parseU]
    rcases hc with rfl | rfl | rfl | rfl <;> simp [parseMap, hck, headIs, ensure, assertWeak]
  | var h =>
    refine ⟨1, fun f hf => ?_⟩
    obtain ⟨f, rfl⟩ := Nat.exists_eq_succ_of_ne_zero (by omega : f ≠ 0)
    rw [parseU]
    rcases hc with rfl | rfl | rfl | rfl <;> simp [h, altOfChar, baseOfChar, isDigit_ws, hck]
  | opt h ih =>
    obtain ⟨f0, ih⟩ := ih
    refine ⟨f0 + 1, fun f hf => ?_⟩
    obtain ⟨f, rfl⟩ := Nat.exists_eq_succ_of_ne_zero (by omega : f ≠ 0)
    obtain ⟨e, he⟩ := ih f (by omega)
    rw [parseU]
    have hn : eatNull t.cfg (c :: s) = .ok none := by
      rcases hc with rfl | rfl | rfl | rfl <;> simp [eatNull, hck, headIs, isTokenAfterValue, List.isPrefixOf]
    rw [hn]
    exact ⟨e, by simp [he]⟩

set_option linter.unusedSimpArgs false in
theorem parseUZ_bare (t : TCfg) (hck : t.cfg.checked = true) (Δ : Env) {ty : Ty} (hb : Bare Δ ty) (c : UInt8) (hc : isWsByte c) (s : Bytes) :
    ∃ f0, ∀ f, f0 ≤ f → ∃ e, parseUZ t Δ f ty 0 (c :: s) = .err e := by
  induction hb with
  | bool =>
    refine ⟨1, fun f hf => ?_⟩
    obtain ⟨f, rfl⟩ := Nat.exists_eq_succ_of_ne_zero (by omega : f ≠ 0)
    rw [parseUZ]
    rcases hc with rfl | rfl | rfl | rfl <;> simp [frontZ, moreZ, emptyZ, atZ, parseBoolZ, eatBoolZ, beforeZ, List.isPrefixOf]
  | int it rc =>
    refine ⟨1, fun f hf => ?_⟩
    obtain ⟨f, rfl⟩ := Nat.exists_eq_succ_of_ne_zero (by omega : f ≠ 0)
    rw [parseUZ]
    cases hsg : it.signed <;> rcases hc with rfl | rfl | rfl | rfl <;>
      simp [frontZ, moreZ, emptyZ, atZ, parseIntZ, hsg, parseSignedZ, parseUnsignedZ, validateSignedFirstZ, isDigit_ws, whenChecked, assertWeak, ensure]
  | str ah =>
    refine ⟨1, fun f hf => ?_⟩
    obtain ⟨f, rfl⟩ := Nat.exists_eq_succ_of_ne_zero (by omega : f ≠ 0)
    rw [parseUZ]
    rcases hc with rfl | rfl | rfl | rfl <;> simp [frontZ, moreZ, emptyZ, atZ, parseStrZ, skipStringZ, ensure]
  | txt k =>
    refine ⟨1, fun f hf => ?_⟩
    obtain ⟨f, rfl⟩ := Nat.exists_eq_succ_of_ne_zero (by omega : f ≠ 0)
    rw [parseUZ]
    cases k with
    | rawStr ah => rcases hc with rfl | rfl | rfl | rfl <;> simp [frontZ, moreZ, emptyZ, atZ, parseTxtZ, rawTextZ, skipStringZ, ensure]
    | date => rcases hc with rfl | rfl | rfl | rfl <;> simp [frontZ, moreZ, emptyZ, atZ, parseTxtZ, rawTextZ, skipStringZ, ensure, assertWeak]
    | custom k =>
      cases k <;> rcases hc with rfl | rfl | rfl | rfl <;>
        simp [frontZ, moreZ, emptyZ, atZ, parseTxtZ, rawTextZ, customTextZ, skipStringZ, skipLiteralZ, skipValueZ, isDigit_ws, ensure, assertWeak]
    | raw => rcases hc with rfl | rfl | rfl | rfl <;> simp [frontZ, moreZ, emptyZ, atZ, parseTxtZ, rawTextZ, skipValueZ, isDigit_ws, ensure, assertWeak]
    | real dbl fmt =>
      rcases hc with rfl | rfl | rfl | rfl <;>
        simp [frontZ, moreZ, emptyZ, atZ, parseTxtZ, rawTextZ, parseRealZ, isNumberStart, isDigit_ws, ensure, assertWeak]
    | quoted al l =>
      cases l with
      | bool =>
        cases al <;> rcases hc with rfl | rfl | rfl | rfl <;>
          simp [frontZ, moreZ, emptyZ, atZ, parseTxtZ, rawTextZ, parseLitZ, parseBoolQZ, skipQuoteZ, headIs, eatBoolZ, beforeZ, List.isPrefixOf, ensure, assertWeak]
      | int it rc =>
        cases al <;> cases hsg : it.signed <;> rcases hc with rfl | rfl | rfl | rfl <;>
          simp [frontZ, moreZ, emptyZ, atZ, parseTxtZ, rawTextZ, parseLitZ, hsg, parseSignedQZ, parseUnsignedQZ, skipQuoteZ, headIs, validateSignedFirstZ, isDigit_ws, whenChecked,
            ensure, assertWeak]
  | map ty =>
    refine ⟨1, fun f hf => ?_⟩
    obtain ⟨f, rfl⟩ := Nat.exists_eq_succ_of_ne_zero (by omega : f ≠ 0)
    rw [parseUZ]
    rcases hc with rfl | rfl | rfl | rfl <;> simp [frontZ, moreZ, emptyZ, atZ, parseMapZ, headIs, ensure, assertWeak]
  | var h =>
    refine ⟨1, fun f hf => ?_⟩
    obtain ⟨f, rfl⟩ := Nat.exists_eq_succ_of_ne_zero (by omega : f ≠ 0)
    rw [parseUZ]
    rcases hc with rfl | rfl | rfl | rfl <;> simp [frontZ, moreZ, emptyZ, atZ, h, altOfChar, baseOfChar, isDigit_ws, hck]
  | opt h ih =>
    obtain ⟨f0, ih⟩ := ih
    refine ⟨f0 + 1, fun f hf => ?_⟩
    obtain ⟨f, rfl⟩ := Nat.exists_eq_succ_of_ne_zero (by omega : f ≠ 0)
    obtain ⟨e, he⟩ := ih f (by omega)
    rw [parseUZ]
    have hn : eatNullZ 0 (c :: s) = .ok none := by
      rcases hc with rfl | rfl | rfl | rfl <;> simp [frontZ, moreZ, emptyZ, atZ, eatNullZ, headIs, isTokenAfterValue, beforeZ, List.isPrefixOf]
    rw [hn]
    exact ⟨e, by simp [he]⟩

theorem dropNul_cons {c : UInt8} (hc : isWsByte c) (s : Bytes) :
    ∃ r, (if (c :: s).getLast? = some 0 then (c :: s).dropLast else c :: s) = c :: r := by
  cases s with
  | nil => rcases hc with rfl | rfl | rfl | rfl <;> exact ⟨[], by simp⟩
  | cons d s => split <;> simp

/-- **C93 does not hold for booleans, numbers, strings, text, maps and variants by kind.**  A document of such a type that begins with
whitespace is rejected, whatever follows it. -/
theorem C93_false_for_scalars_and_maps (t : TCfg) (hck : t.cfg.checked = true) (Δ : Env) (ty : Ty) (hb : Bare Δ ty) (w s : Bytes) (hw : IsWs w)
    (hne : w ≠ []) :
    (∃ f0, ∀ f, f0 ≤ f → ∃ e, fromJson t Δ f ty (w ++ s) = .err e) ∧ ∃ f0, ∀ f, f0 ≤ f → ∃ e, fromJsonZ t Δ f ty (w ++ s) = .err e := by
  obtain ⟨c, w, rfl⟩ := List.exists_cons_of_ne_nil hne
  have hc := hw c (List.mem_cons_self ..)
  obtain ⟨r, hr⟩ := dropNul_cons hc (w ++ s)
  refine ⟨?_, ?_⟩
  · obtain ⟨f0, h⟩ := parseU_bare t hck Δ hb c hc r
    refine ⟨f0, fun f hf => ?_⟩
    obtain ⟨e, he⟩ := h f hf
    refine ⟨e, ?_⟩
    unfold fromJson; dsimp only
    rw [List.cons_append, hr, he]; rfl
  · obtain ⟨f0, h⟩ := parseUZ_bare t hck Δ hb c hc r
    refine ⟨f0, fun f hf => ?_⟩
    obtain ⟨e, he⟩ := h f hf
    refine ⟨e, ?_⟩
    unfold fromJsonZ; dsimp only
    rw [List.cons_append, hr, he]; rfl

/-- A variant with arrays and classes. -/
def exLeadEnv : Env := fun i =>
  if i = 0 then .obj [⟨asc! "a", .int exI32 false⟩] false
  else if i = 1 then .tup [.bool, .arr .bool] true
  else if i = 2 then .ord [(some 1, .bool)] false
  else if i = 3 then .ivar ⟨asc! "a", .int exI32 false⟩ (fun _ => 0) [.ref 0]
  else .var [.bool, .ref 0]

example : fromJson {} exLeadEnv 9 (.opt (.ref 3)) (asc! " \n{\"a\":7}") = fromJson {} exLeadEnv 9 (.opt (.ref 3)) asc! "{\"a\":7}" ∧
    fromJsonZ {} exLeadEnv 9 (.opt (.ref 3)) (asc! " \n{\"a\":7}") = fromJsonZ {} exLeadEnv 9 (.opt (.ref 3)) asc! "{\"a\":7}" :=
  C93_leading_whitespace_partial {} exLeadEnv _ (.opt (.ivar (i := 3) rfl fun ty h => by
    cases List.mem_singleton.1 h; exact .obj (i := 0) rfl)) 9 asc! " \n" asc! "{\"a\":7}" (by unfold IsWs isWsByte; decide)
    ⟨_, .inr rfl⟩

example : fromJson {} exLeadEnv 9 (.opt (.ref 3)) (asc! "{\"a\":7}") = .ok (.some (.alt 0 (.cls [.int 7]))) ∧
    fromJson {} exLeadEnv 9 (.ref 1) (asc! "\t[true,[]]") = .ok (.cls [.bool true, .arr []]) := by decide +kernel

example : ∃ f0, ∀ f, f0 ≤ f → ∃ e, fromJson {} exLeadEnv f (.opt (.map .bool)) asc! " {}" = .err e :=
  (C93_false_for_scalars_and_maps {} rfl exLeadEnv _ (.opt (.map .bool)) asc! " " asc! "{}" (by unfold IsWs isWsByte; decide) (by simp)).1

example : fromJson {} exLeadEnv 9 (.opt (.map .bool)) (asc! "{}") = .ok (.some (.map [])) ∧
    fromJson {} exLeadEnv 9 (.opt (.map .bool)) (asc! " {}") = .err .expectedKeyValueToStartWithBrace := by decide +kernel

/-- Nor for `null` as a nullable array or class: without the whitespace it is the empty value. -/
theorem C93_false_for_null :
    fromJson {} exLeadEnv 9 (.opt (.arr .bool)) (asc! "null") = .ok .none ∧
    fromJson {} exLeadEnv 9 (.opt (.arr .bool)) (asc! " null") = .err .invalidArrayStart ∧
    fromJsonZ {} exLeadEnv 9 (.opt (.ref 0)) (asc! "null") = .ok .none ∧
    fromJsonZ {} exLeadEnv 9 (.opt (.ref 0)) (asc! " null") = .err .invalidClassStart := by decide +kernel

/-! ## C94 -/

/-- **C94.**  `from_json_array<T>` of a text that is not only whitespace and does not end with a `'\0'` gives what `from_json` gives for an
array of `T`, value, error or otherwise, with any options; of a `std::string` also if it is only whitespace. -/
theorem C94_is_from_json_of_an_array_partial (t : TCfg) (Δ : Env) (ty : Ty) (f : Nat) (s : Bytes) (h0 : s.getLast? ≠ some 0) :
    (¬ LibSpace s → fromJsonArray t Δ f ty s = fromJson t Δ (f + 1) (.arr ty) s) ∧
      fromJsonArrayZ t Δ f ty s = fromJsonZ t Δ (f + 1) (.arr ty) s := by
  refine ⟨fun hs => ?_, ?_⟩
  · have hne : trimChecked s ≠ [] := fun h => hs ((trimChecked_nil_iff s).1 h)
    have hp : parseU t Δ (f + 1) (.arr ty) s = parseArr t.cfg (parseU t Δ f ty) s := by rw [parseU]
    unfold fromJsonArray fromJson; dsimp only
    rw [if_neg h0, hp]
    unfold parseArr
    rw [trimUnchecked_of rfl hne, trim_of (cfg := t.cfg) (bs := s) rfl hne]
    simp only [Res.ok_bind, trim_of (cfg := t.cfg) (bs := trimChecked s) (trimChecked_idem s) hne]
    cases hc : t.cfg.checked <;> cases hb : headIs (fun x => x == chLBrack) (trimChecked s) <;> simp [assertWeak, ensure]
  · have hp : parseUZ t Δ (f + 1) (.arr ty) 0 s = parseArrZ (parseUZ t Δ f ty) 0 s := by rw [parseUZ]
    unfold fromJsonArrayZ fromJsonZ; dsimp only
    rw [if_neg h0, hp]
    unfold parseArrZ
    rw [trimChecked_idem]
    cases hb : atZ chLBrack 0 (trimChecked s) <;> simp [ensure, hb]

/-- **C94 does not hold for whitespace only.**  `from_json_array` of a string view reads behind its end; `from_json` throws. -/
theorem C94_false_for_whitespace (t : TCfg) (hck : t.cfg.checked = true) (Δ : Env) (ty : Ty) (f : Nat) (w : Bytes) (hw : IsWs w) (hne : w ≠ []) :
    fromJsonArray t Δ f ty w = .ub ∧ fromJson t Δ (f + 1) (.arr ty) w = .err .invalidArrayStart := by
  have h1 : trimChecked w = [] := by
    have h := trimChecked_ws w [] hw
    rwa [List.append_nil] at h
  have h0 : w.getLast? ≠ some 0 := by
    intro h
    rcases hw 0 (List.mem_of_getLast? h) with h | h | h | h <;> cases h
  have he : w.isEmpty = false := by cases w; exact absurd rfl hne; rfl
  refine ⟨?_, ?_⟩
  · unfold fromJsonArray
    rw [(trimUnchecked_ub_iff w).2 h1, he]; rfl
  · have hp : parseU t Δ (f + 1) (.arr ty) w = parseArr t.cfg (parseU t Δ f ty) w := by rw [parseU]
    unfold fromJson; dsimp only
    rw [if_neg h0, hp]
    unfold parseArr
    rw [trim_ck hck, h1, he]
    simp [hck, headIs, ensure, assertWeak]

/-- Nor for an array of characters with its terminator, if the end of the document is verified. -/
theorem C94_false_with_terminator :
    fromJson { verifyEnd := true } exLeadEnv 9 (.arr .bool) (asc! "[true]" ++ [0]) = .ok (.arr [.bool true]) ∧
    fromJsonArray { verifyEnd := true } exLeadEnv 8 .bool (asc! "[true]" ++ [0]) = .err .invalidEndOfValue ∧
    fromJsonArray {} exLeadEnv 8 .bool (asc! "[true]" ++ [0]) = .ok (.arr [.bool true]) := by decide +kernel

example : fromJsonArray {} exLeadEnv 8 .bool asc! " [true]" = fromJson {} exLeadEnv 9 (.arr .bool) asc! " [true]" :=
  (C94_is_from_json_of_an_array_partial {} exLeadEnv .bool 8 asc! " [true]" (by decide)).1
    (fun h => absurd (h 0x5B (by simp)) (by decide))

example : fromJsonArray {} exLeadEnv 8 .bool (asc! " [true]") = .ok (.arr [.bool true]) ∧
    fromJsonArray {} exLeadEnv 8 .bool (asc! "{}") = .err .invalidArrayStart := by decide +kernel

end Verif
