import Verif.Proof.SoundClass

/-!
# What an accepted document looks like
-/

namespace Verif

open Spec

/-! ## In front of a closing bracket -/

section
variable {t : TCfg} (hck : t.cfg.checked = true)
include hck

theorem parseTxt_end (ki : TxtKind) (k : Bytes) (q : Val × Bytes) : parseTxt t.cfg ki (chRBrack :: k) ≠ .ok q := by
  intro h
  cases ki with
  | rawStr ah => simp [parseTxt, skipString, ensure] at h
  | date => simp [parseTxt, parseDate, skipString, ensure, hck] at h
  | raw => simp [parseTxt, skipValue, hck, show ¬ parseDigit 93 < 10 by decide, isDigit] at h
  | custom c =>
    cases c with
    | str => simp [parseTxt, parseCustom, customText, skipString, ensure] at h
    | lit => simp [parseTxt, parseCustom, customText, skipLiteral, hck, show ¬ parseDigit 93 < 10 by decide, isDigit] at h
    | any => simp [parseTxt, parseCustom, customText, skipValue, hck, show ¬ parseDigit 93 < 10 by decide, isDigit] at h
  | real dbl fmt =>
    simp only [parseTxt, parseReal, Res.bind_eq_ok] at h
    obtain ⟨_, ⟨_, hq, -⟩, -⟩ := h
    exact realUnknown_head (cfg := t.cfg.real false dbl) hck (by decide) _ hq
  | quoted al l =>
    cases al with
    | true => cases l <;> simp [parseTxt, parseLit, parseBoolQ, parseSignedQ, parseUnsignedQ, skipQuote, hck, headIs] at h
    | false =>
      cases l with
      | bool => simp [parseTxt, parseLit, parseBoolQ, skipQuote, hck, eatBool] at h
      | int ity rc =>
        simp only [parseTxt, parseLit] at h
        split at h <;>
          simp [parseSignedQ, parseUnsignedQ, skipQuote, validateSignedFirst, whenChecked, ensure, hck, show ¬ parseDigit 93 < 10 by decide, isDigit] at h

theorem parseObj_end {exact : Bool} {ms : List Member} {pU : Ty → Bytes → Res (Val × Bytes)} {pK : Ty → Range → Bytes → Res Val}
    (k : Bytes) (q : Val × Bytes) : parseObj t exact ms pU pK (chRBrack :: k) ≠ .ok q := by
  intro h
  unfold parseObj at h
  rw [trim_ck hck, trimChecked_cons_of_not _ (by decide)] at h
  simp [hck, headIs, ensure] at h

theorem parseU_end {Δ : Env} : ∀ (f : Nat) (ty : Ty), SoundEnd (parseU t Δ f ty) ty.isOpt
  | 0, ty, k, v, r, h => by simp [parseU] at h
  | f + 1, ty, k, v, r, h => by
    have hsp : isSpace chRBrack = false := by decide
    have htr : trim t.cfg (chRBrack :: k) = .ok (chRBrack :: k) := by rw [trim_ck hck, trimChecked_cons_of_not _ hsp]
    cases ty with
    | bool => simp [parseU, parseBool, eatBool, hck, List.isPrefixOf] at h
    | int ity rc =>
      simp only [parseU, parseInt] at h
      split at h
      · simp [parseSigned, validateSignedFirst, hck, show ¬ parseDigit 93 < 10 by decide, isDigit] at h
      · simp [parseUnsigned, whenChecked, hck, ensure, show ¬ parseDigit 93 < 10 by decide, isDigit] at h
    | str ah => simp [parseU, parseStr, skipString, ensure] at h
    | txt ki => exact absurd h (by simpa only [parseU] using parseTxt_end hck ki k (v, r))
    | opt ty =>
      simp [parseU, eatNull, headIs, isTokenAfterValue] at h
      exact ⟨rfl, h.2.symm⟩
    | arr ty =>
      simp only [parseU, parseArr, htr] at h
      simp [hck, headIs, ensure] at h
    | map ty => simp [parseU, parseMap, hck, headIs, ensure] at h
    | ref i =>
      unfold parseU at h
      simp only at h
      split at h
      · simp only [Res.bind_eq_ok] at h
        obtain ⟨_, -, ⟨x, y⟩, hx, -⟩ := h
        exact absurd hx (parseObj_end hck k _)
      · simp only [parseTup, htr] at h
        simp [hck, headIs, ensure] at h
      · simp only [parseOrd, htr] at h
        simp [hck, headIs, ensure] at h
      · simp [altOfChar, show baseOfChar 93 = none by decide, hck] at h
      · simp only [Res.bind_eq_ok] at h
        obtain ⟨_, -, ⟨x, y⟩, hx, -⟩ := h
        exact absurd hx (parseObj_end hck k _)

end

/-! ## Tuples -/

section
variable {cfg : Cfg} (hck : cfg.checked = true) {tc : Bool} {w k : Bytes} (hw : IsTail tc w)
  {pU : Ty → Bytes → Res (Val × Bytes)} {S : Ty → Prop} {P : Ty → JVal → Prop}
include hck hw

theorem tupMembers_sound (hU : ∀ ty d, S ty → DOk tc d → SoundU (pU ty) d (P ty d)) (hE : ∀ ty, SoundEnd (pU ty) ty.isOpt) :
    ∀ (ts : List Ty) (es : JElems) (vs : List Val) (b : Bytes), (∀ ty ∈ ts, S ty) → EOk tc es → tupMembers cfg pU ts (arrRest w k es) = .ok (vs, b) →
      ∃ es', b = arrRest w k es' ∧ EOk tc es' ∧ es'.toList = es.toList.drop ts.length ∧
        (∀ (p : Nat) ty d, ts[p]? = some ty → es.toList[p]? = some d → P ty d) ∧
        ∀ (p : Nat) ty, ts[p]? = some ty → es.toList.length ≤ p → ty.isOpt = true
  | [], es, vs, b, hS, hok, h => by
    simp only [tupMembers, Res.ok.injEq, Prod.mk.injEq] at h
    exact ⟨es, h.2.symm, hok, by simp, by simp, by simp⟩
  | ty :: ts, es, vs, b, hS, hok, h => by
    unfold tupMembers at h
    simp only [Res.bind_eq_ok, moveNext_ck hck, Res.ok.injEq] at h
    obtain ⟨_, -, ⟨v, b₁⟩, hv, _, rfl, ⟨vs', b₂⟩, htm, hres⟩ := h
    simp only [Prod.mk.injEq] at hres
    obtain ⟨-, rfl⟩ := hres
    match es with
    | .nil =>
      obtain ⟨hopt, rfl⟩ := hE ty k v b₁ hv
      have hmv : moveNextChecked (chRBrack :: k) = arrRest w k .nil := moveNext_arrRest (tc := tc) (w := w) .nil (by simp [JElems.WFt])
      rw [hmv] at htm
      obtain ⟨es', h1, h2, h3, h4, h5⟩ := tupMembers_sound hU hE ts .nil vs' b₂ (fun x hx => hS x (List.mem_cons_of_mem _ hx)) hok htm
      refine ⟨es', h1, h2, by rw [h3]; simp [JElems.toList], by simp [JElems.toList], ?_⟩
      intro p ty' hp _
      cases p with
      | zero =>
        simp only [List.getElem?_cons_zero, Option.some.injEq] at hp
        subst hp
        exact hopt
      | succ p => exact h5 p ty' (by simpa using hp) (by simp [JElems.toList])
    | .cons pre d post tl =>
      obtain ⟨hdo, htl⟩ := hok.cons
      have hwf := hok.wf
      simp only [JElems.WFt] at hwf
      obtain ⟨htr, hP⟩ := hU ty d (hS ty (List.mem_cons_self ..)) hdo _ _ _ (arrAfter_after (tl := tl) (k := k) hwf.2.2.1 hw) hv
      rw [moveNextChecked_trimEq htr, moveNext_arr hwf.2.2.1 htl.wf hw] at htm
      obtain ⟨es', h1, h2, h3, h4, h5⟩ := tupMembers_sound hU hE ts tl vs' b₂ (fun x hx => hS x (List.mem_cons_of_mem _ hx)) htl htm
      refine ⟨es', h1, h2, by rw [h3]; simp [JElems.toList], ?_, ?_⟩
      · intro p ty' d' hp hd'
        cases p with
        | zero =>
          simp only [JElems.toList, List.getElem?_cons_zero, Option.some.injEq] at hp hd'
          subst hp hd'
          exact hP
        | succ p =>
          simp only [JElems.toList, List.getElem?_cons_succ] at hp hd'
          exact h4 p ty' d' hp hd'
      · intro p ty' hp hle
        cases p with
        | zero => simp [JElems.toList] at hle
        | succ p =>
          simp only [JElems.toList, List.getElem?_cons_succ, List.length_cons] at hp hle
          exact h5 p ty' hp (by omega)

end

theorem parseTup_sound {cfg : Cfg} (hck : cfg.checked = true) {ts : List Ty} {pU : Ty → Bytes → Res (Val × Bytes)} {S : Ty → Prop} {P : Ty → JVal → Prop}
    (hS : ∀ ty ∈ ts, S ty) (hU : ∀ ty d, S ty → DOk false d → SoundU (pU ty) d (P ty d)) (hE : ∀ ty, SoundEnd (pU ty) ty.isOpt) {d : JVal} (hd : DOk false d) :
    SoundU (parseTup cfg true ts pU) d (∃ w es, d = .arr w es ∧ es.toList.length ≤ ts.length ∧
        (∀ (p : Nat) ty x, ts[p]? = some ty → es.toList[p]? = some x → P ty x) ∧
        ∀ (p : Nat) ty, ts[p]? = some ty → es.toList.length ≤ p → ty.isOpt = true) := by
  intro k v r hk h
  unfold parseTup at h
  simp only [Res.bind_eq_ok, trim_ck hck, moveNext_ck hck, Res.ok.injEq, if_true] at h
  obtain ⟨_, rfl, _, hst, _, rfl, _, rfl, ⟨vs, b⟩, htm, _, rfl, c, hc, _, hcl, _, rfl, hres⟩ := h
  simp only [Prod.mk.injEq] at hres
  obtain ⟨-, rfl⟩ := hres
  rw [trimChecked_text d hd.wf] at hst htm
  obtain ⟨c0, cs0, hc0, -⟩ := text_head d hd.wf
  obtain ⟨w, es, rfl⟩ : ∃ w es, d = .arr w es := by
    apply starts_array hd.wf hc0
    by_cases hq : c0 = chLBrack
    · exact hq
    · simp [hck, hc0, headIs, ensure, hq] at hst
  have hwf := hd.wf
  simp only [JVal.WFt] at hwf
  obtain ⟨b₀, hb₀, hmv, htrim, -⟩ := arr_open (k := k) hd.wf
  rw [trimChecked_text _ hd.wf] at hb₀
  rw [hb₀, List.tail_cons, hmv, htrim] at htm
  obtain ⟨es', rfl, hok', hdrop, h4, h5⟩ := tupMembers_sound hck hwf.1 hU hE ts es vs b hS hd.elems htm
  match es' with
  | .nil =>
    have e : trimChecked (arrRest w k .nil) = chRBrack :: k := trimChecked_cons_of_not _ (by decide)
    rw [e, List.tail_cons]
    refine ⟨trimChecked_te (TrimEq.refl k), w, es, rfl, ?_, h4, h5⟩
    have := congrArg List.length hdrop
    simp only [JElems.toList, List.length_nil, List.length_drop] at this
    omega
  | .cons pre x post tl =>
    exfalso
    have hwf' := hok'.wf
    simp only [JElems.WFt] at hwf'
    obtain ⟨y, ys, hy, hyn⟩ := arrRest_cons_head (w := w) (k := k) (pre := pre) (post := post) (tl := tl) hwf'.2.1
    have e : trimChecked (arrRest w k (.cons pre x post tl)) = arrRest w k (.cons pre x post tl) := trimChecked_text x hwf'.2.1 _
    rw [e, hy, derefEnd_cons] at hc
    simp only [Res.ok.injEq] at hc
    subst hc
    simp [hck, ensure, hyn] at hcl

/-! ## The type and the document -/

theorem stored_plain (t : TCfg) {tc : Bool} {d : JVal} (hd : d.WFt tc) {r : Range} {a : Bytes} (h : Stored d r a) (hs : ∀ b, d ≠ .str b) :
    t.inside r = t ∧ r.quoted = false ∧ r.text = d.text := by
  have hq : r.quoted = false := by
    rw [h.2.2.2.2.1, Bool.eq_false_iff]
    intro hc
    obtain ⟨b, rfl⟩ := kind_string ((headIs_quote hd h.1).1 hc)
    exact hs b rfl
  exact ⟨t.inside_unquoted hq, hq, stored_text h hs⟩

theorem findAlt_of_mem {Δ : Env} {b : BaseTy} : ∀ (alts : List Ty) (n : Nat) {a : Nat × Ty}, findAlt Δ b n alts = some a → a.2 ∈ alts
  | [], n, a, h => by simp [findAlt] at h
  | ty :: ts, n, a, h => by
    unfold findAlt at h
    split at h
    · simp only [Option.some.injEq] at h
      subst h
      simp
    · exact List.mem_cons_of_mem _ (findAlt_of_mem ts _ h)

theorem altOfBase_mem {Δ : Env} {alts : List Ty} {b : BaseTy} {a : Nat × Ty} (h : altOfBase Δ alts b = .ok a) : a.2 ∈ alts := by
  unfold altOfBase at h
  split at h
  · rename_i x hx
    simp only [Res.ok.injEq] at h
    subst h
    exact findAlt_of_mem alts 0 hx
  · cases h

theorem altOfChar_mem {cfg : Cfg} (hck : cfg.checked = true) {Δ : Env} {alts : List Ty} {c : UInt8} {a : Nat × Ty} (h : altOfChar cfg Δ alts c = .ok a) :
    a.2 ∈ alts ∧ c ≠ chN := by
  unfold altOfChar at h
  split at h
  · rename_i b hb
    refine ⟨altOfBase_mem h, ?_⟩
    rintro rfl
    revert hb
    rw [show baseOfChar chN = none by decide]
    simp
  · simp [hck] at h

theorem altOfTag_mem {cfg : Cfg} (hck : cfg.checked = true) {sw : Val → Nat} {alts : List Ty} {x : Val} {a : Nat × Ty}
    (h : altOfTag cfg sw alts x = .ok a) : a.2 ∈ alts := by
  unfold altOfTag at h
  split at h
  · split at h
    · rename_i ty hty
      simp only [Res.ok.injEq] at h
      subst h
      exact List.mem_of_getElem? hty
    · simp [hck] at h
  · cases h

section
variable {Δ : Env} {ea : Bool} (hpl : PlainShapes Δ ea)
include hpl

theorem strict_obj {i : Nat} {ms : List Member} {ex : Bool} (hi : Δ i = .obj ms ex) : ∀ m ∈ ms, m.ty.strict = true := by
  have := hpl.2.2 i
  rw [hi] at this
  simpa [Shape.strict] using this

theorem strict_tup {i : Nat} {ts : List Ty} {ex : Bool} (hi : Δ i = .tup ts ex) : ∀ ty ∈ ts, ty.strict = true := by
  have := hpl.2.2 i
  rw [hi] at this
  simpa [Shape.strict] using this

theorem strict_var {i : Nat} {alts : List Ty} (hi : Δ i = .var alts) : ∀ ty ∈ alts, ty.strict = true := by
  have := hpl.2.2 i
  rw [hi] at this
  simpa [Shape.strict] using this

theorem strict_ivar {i : Nat} {tag : Member} {sw : Val → Nat} {alts : List Ty} (hi : Δ i = .ivar tag sw alts) :
    tag.ty.strict = true ∧ ∀ ty ∈ alts, ty.strict = true := by
  have := hpl.2.2 i
  rw [hi] at this
  simpa [Shape.strict] using this

end

section
variable {t : TCfg} {Δ : Env} {nm : List Bytes → Bytes → Prop} {ea : Bool} (hck : t.cfg.checked = true)
  (hnod : ∀ i ms ex, Δ i = .obj ms ex → (ms.map Member.name).Nodup) (hpl : PlainShapes Δ ea)
  (hnm : ∀ N n, nm N n → NameOk t N n ∧ (PlainName n ∨ t.escNames = true)) (hea : ea = t.exactAll)
include hck hnod hpl hnm hea

theorem parse_sound : ∀ (f : Nat) (ty : Ty) (d : JVal), ty.strict = true → DOk false d →
    SoundU (parseU t Δ f ty) d (Shaped Δ nm ea ty d) ∧
    ∀ r a v, Stored d r a → parseK t Δ f ty r a = .ok v → Loose Δ nm ea ty d
  | 0, ty, d, _, hd => ⟨fun k v r _ h => by simp [parseU] at h, fun r a v _ h => by simp [parseK] at h⟩
  | f + 1, ty, d, hs0, hd => by
    have hU : ∀ ty d, ty.strict = true → DOk false d → SoundU (parseU t Δ f ty) d (Shaped Δ nm ea ty d) := fun ty d hs hd => (parse_sound f ty d hs hd).1
    have hK : ∀ ty d r a v, ty.strict = true → DOk false d → Stored d r a → parseK t Δ f ty r a = .ok v → Loose Δ nm ea ty d :=
      fun ty d r a v hs hd => (parse_sound f ty d hs hd).2 r a v
    have hE : ∀ ty : Ty, SoundEnd (parseU t Δ f ty) ty.isOpt := fun ty => parseU_end hck f ty
    have hobj : ∀ {exact : Bool} {ms : List Member}, (ms.map Member.name).Nodup → (∀ m ∈ ms, m.ty.strict = true) →
        SoundU (parseObj t exact ms (parseU t Δ f) (parseK t Δ f)) d (∃ w jm, d = .obj w jm ∧ ShapedObj Δ nm ea ms exact jm) :=
      fun hn hS => parseObj_sound hck hnm hn hS hU hK hd
    -- parts that are read with known bounds as with unknown ones
    have seen : ∀ {p : Bytes → Res (Val × Bytes)} {P : Prop} {r : Range} {a : Bytes} {x : Val × Bytes}, (∀ b, d ≠ .str b) → Stored d r a →
        SoundU p d P → p (r.seen t.cfg a) = .ok x → P := by
      intro p P r a x hs hst hp h
      obtain ⟨-, -, htx⟩ := stored_plain t hd.wf hst hs
      rw [Range.seen, if_pos hck, htx] at h
      exact (hp [] x.1 x.2 afterValue_nil (by rw [List.append_nil]; exact h)).2
    constructor
    · -- unknown bounds
      intro k v r hk h
      cases ty with
      | bool =>
        simp only [parseU, Res.bind_eq_ok] at h
        obtain ⟨⟨x, y⟩, hx, hres⟩ := h
        simp only [Res.ok.injEq, Prod.mk.injEq] at hres
        obtain ⟨-, rfl⟩ := hres
        obtain ⟨h1, rfl | rfl⟩ := parseBool_sound hck hd.wf hk hx
        · exact ⟨h1, .tru⟩
        · exact ⟨h1, .fls⟩
      | int ity rc =>
        simp only [parseU, Res.bind_eq_ok] at h
        obtain ⟨⟨x, y⟩, hx, hres⟩ := h
        simp only [Res.ok.injEq, Prod.mk.injEq] at hres
        obtain ⟨-, rfl⟩ := hres
        obtain ⟨h1, m, i, hm, hi, rfl⟩ := parseInt_sound hck hd.wf hk hx
        exact ⟨h1, .int hm hi⟩
      | str ah =>
        simp only [parseU, Res.bind_eq_ok] at h
        obtain ⟨⟨x, y⟩, hx, hres⟩ := h
        simp only [Res.ok.injEq, Prod.mk.injEq] at hres
        obtain ⟨-, rfl⟩ := hres
        obtain ⟨rfl, b, rfl⟩ := parseStr_sound hd.wf hd.size hx
        exact ⟨TrimEq.refl _, .str⟩
      | txt ki => exact parseTxt_sound hck hd ki hs0 k v r hk (by simpa only [parseU] using h)
      | opt ty =>
        simp only [parseU, Res.bind_eq_ok] at h
        obtain ⟨o, ho, h⟩ := h
        by_cases hnull : d = .null
        · subst hnull
          obtain ⟨r', h1, h2⟩ := eatNull_null hck hk
          rw [h1] at ho
          simp only [Res.ok.injEq] at ho
          subst ho
          simp only [Res.ok.injEq, Prod.mk.injEq] at h
          rw [← h.2]
          exact ⟨h2, .null⟩
        · rw [eatNull_value hd.wf hnull] at ho
          simp only [Res.ok.injEq] at ho
          subst ho
          simp only [Res.bind_eq_ok] at h
          obtain ⟨⟨x, y⟩, hx, hres⟩ := h
          simp only [Res.ok.injEq, Prod.mk.injEq] at hres
          obtain ⟨-, rfl⟩ := hres
          obtain ⟨h1, h2⟩ := hU ty d hs0 hd k x y hk hx
          exact ⟨h1, .some hnull h2⟩
      | arr ty =>
        simp only [parseU] at h
        obtain ⟨h1, w, es, rfl, h2⟩ := parseArr_sound hck hd (fun d => hU ty d hs0) k v r hk h
        exact ⟨h1, .arr h2⟩
      | map ty =>
        simp only [parseU] at h
        obtain ⟨h1, w, es, rfl, h2⟩ := parseMap_sound hck hd (fun d => hU ty d hs0) k v r hk h
        exact ⟨h1, .map h2⟩
      | ref i =>
        unfold parseU at h
        simp only at h
        split at h
        · rename_i ms ex hi
          simp only [Res.bind_eq_ok] at h
          obtain ⟨_, -, ⟨x, y⟩, hx, hres⟩ := h
          simp only [Res.ok.injEq, Prod.mk.injEq] at hres
          obtain ⟨-, rfl⟩ := hres
          obtain ⟨h1, w, jm, rfl, h2⟩ := hobj (hnod i ms ex hi) (strict_obj hpl hi) k x y hk hx
          rw [← hea] at h2
          exact ⟨trimChecked_te h1, .obj hi h2⟩
        · rename_i ts ex hi
          rw [← hea, hpl.2.1 i ts ex hi] at h
          obtain ⟨h1, w, es, rfl, h2, h3, h4⟩ := parseTup_sound hck (strict_tup hpl hi) hU hE hd k v r hk h
          exact ⟨h1, .tup hi h2 h3 h4⟩
        · rename_i ms ex hi
          exact absurd hi (hpl.1 i ms ex)
        · rename_i alts hi
          simp only [Res.bind_eq_ok] at h
          obtain ⟨c, hc, a, ha, ⟨x, y⟩, hx, hres⟩ := h
          simp only [Res.ok.injEq, Prod.mk.injEq] at hres
          obtain ⟨-, rfl⟩ := hres
          obtain ⟨hmem, hcn⟩ := altOfChar_mem hck ha
          obtain ⟨h1, h2⟩ := hU a.2 d (strict_var hpl hi _ hmem) hd k x y hk hx
          refine ⟨h1, .var hi hmem ?_ h2⟩
          rintro rfl
          simp only [JVal.text, List.cons_append, derefEnd_cons, Res.ok.injEq] at hc
          exact hcn hc.symm
        · rename_i tag sw alts hi
          simp only [Res.bind_eq_ok] at h
          obtain ⟨_, -, ⟨x, y⟩, hx, a, ha, ⟨x', y'⟩, hx', hres⟩ := h
          simp only [Res.ok.injEq, Prod.mk.injEq] at hres
          obtain ⟨-, rfl⟩ := hres
          obtain ⟨-, w, jm, rfl, h2⟩ := hobj (by simp) (by simpa using (strict_ivar hpl hi).1) k x y hk hx
          obtain ⟨h3, h4⟩ := hU a.2 _ ((strict_ivar hpl hi).2 _ (altOfTag_mem hck ha)) hd k x' y' hk hx'
          rw [← hea] at h2
          exact ⟨h3, .ivar hi h2 (altOfTag_mem hck ha) h4⟩
    · -- known bounds
      intro r a v hst h
      by_cases hstr : ∃ b, d = .str b
      · obtain ⟨b, rfl⟩ := hstr
        exact .string
      have hs : ∀ b, d ≠ .str b := fun b hb => hstr ⟨b, hb⟩
      obtain ⟨hin, hq, htx⟩ := stored_plain t hd.wf hst hs
      obtain ⟨c0, cs0, hc0, -⟩ := text_head d hd.wf
      cases ty with
      | bool =>
        simp only [parseK, hin, Res.bind_eq_ok, parseBoolKnown, if_pos hck, htx, hc0, derefEnd_cons, Res.ok.injEq] at h
        obtain ⟨_, ⟨c, rfl, hx⟩, -⟩ := h
        rcases starts_bool hd.wf hc0 (by
          split at hx
          · exact Or.inl ‹_›
          · split at hx
            · exact Or.inr ‹_›
            · cases hx) with rfl | rfl
        · exact .shaped .tru
        · exact .shaped .fls
      | int ity rc =>
        simp only [parseK, hin, Res.bind_eq_ok, htx, hc0] at h
        obtain ⟨i, hx, -⟩ := h
        obtain ⟨x, rfl⟩ := starts_number hd.wf hc0 (by
          unfold parseIntKnown at hx
          split at hx
          · simp only [parseSignedKnown, whenChecked, hck, if_true, derefEnd_cons, Res.ok_bind, Res.bind_eq_ok] at hx
            obtain ⟨_, h1, -⟩ := hx
            by_cases hm : c0 = chMinus
            · exact Or.inl hm
            · refine Or.inr ?_
              revert h1
              cases isDigit c0 <;> simp [ensure, hm]
          · simp only [parseUnsignedKnown, validateUnsignedFirst, hck, if_true, derefEnd_cons, Res.ok_bind, Res.bind_eq_ok] at hx
            obtain ⟨_, h1, -⟩ := hx
            refine Or.inr ?_
            cases hdg : isDigit c0 with
            | true => rfl
            | false =>
              have : c0 ≠ ch0 := by rintro rfl; revert hdg; decide
              simp [hdg, this] at h1)
        exact .number
      | str ah => exact .text trivial
      | txt ki => exact .text trivial
      | opt ty =>
        simp only [parseK, hst.2.2.1, Bool.false_eq_true, if_false, Res.bind_eq_ok] at h
        obtain ⟨x, hx, -⟩ := h
        exact .opt (hK ty d r a x hs0 hd hst hx)
      | arr ty =>
        simp only [parseK, hin, Res.bind_eq_ok] at h
        obtain ⟨x, hx, -⟩ := h
        obtain ⟨w, es, rfl, h2⟩ := seen hs hst (parseArr_sound hck hd (fun d => hU ty d hs0)) hx
        exact .shaped (.arr h2)
      | map ty =>
        simp only [parseK, hin, Res.bind_eq_ok] at h
        obtain ⟨x, hx, -⟩ := h
        obtain ⟨w, es, rfl, h2⟩ := seen hs hst (parseMap_sound hck hd (fun d => hU ty d hs0)) hx
        exact .shaped (.map h2)
      | ref i =>
        unfold parseK at h
        simp only [hin] at h
        split at h
        · rename_i ms ex hi
          simp only [Res.bind_eq_ok] at h
          obtain ⟨_, -, x, hx, -⟩ := h
          obtain ⟨w, jm, rfl, h2⟩ := seen hs hst (hobj (hnod i ms ex hi) (strict_obj hpl hi)) hx
          rw [← hea] at h2
          exact .shaped (.obj hi h2)
        · rename_i ts ex hi
          rw [← hea, hpl.2.1 i ts ex hi] at h
          simp only [Res.bind_eq_ok] at h
          obtain ⟨x, hx, -⟩ := h
          obtain ⟨w, es, rfl, h2, h3, h4⟩ := seen hs hst (parseTup_sound hck (strict_tup hpl hi) hU hE hd) hx
          exact .shaped (.tup hi h2 h3 h4)
        · rename_i ms ex hi
          exact absurd hi (hpl.1 i ms ex)
        · rename_i alts hi
          simp only [Res.bind_eq_ok] at h
          obtain ⟨x, hx, y, hy, -⟩ := h
          simp only [altOfRange, hq, Bool.false_eq_true, if_false, Res.bind_eq_ok] at hx
          obtain ⟨c, -, hx⟩ := hx
          exact .var hi (altOfChar_mem hck hx).1 (hK x.2 d r a y (strict_var hpl hi _ (altOfChar_mem hck hx).1) hd hst hy)
        · rename_i tag sw alts hi
          simp only [Res.bind_eq_ok] at h
          obtain ⟨_, -, x, hx, y, hy, z, hz, -⟩ := h
          obtain ⟨w, jm, rfl, h2⟩ := seen hs hst (hobj (by simp) (by simpa using (strict_ivar hpl hi).1)) hx
          have h4 := seen hs hst (hU y.2 _ ((strict_ivar hpl hi).2 _ (altOfTag_mem hck hy)) hd) hz
          rw [← hea] at h2
          exact .shaped (.ivar hi h2 (altOfTag_mem hck hy) h4)

end

end Verif
