import Verif.Spec.Shaped
import Verif.Proof.TypedMain

/-!
# What an accepted document looks like: values without parts, arrays, maps, tuples
-/

namespace Verif

open Spec

/-- Where `p` accepts `d`, whatever follows, it consumes just `d`, and `P` holds. -/
def SoundU (p : Bytes → Res (Val × Bytes)) (d : JVal) (P : Prop) : Prop :=
  ∀ k v r, AfterValue k → p (d.text ++ k) = .ok (v, r) → TrimEq r k ∧ P

/-- In front of a closing bracket `p` accepts only what may be missing. -/
def SoundEnd (p : Bytes → Res (Val × Bytes)) (opt : Bool) : Prop :=
  ∀ k v r, p (chRBrack :: k) = .ok (v, r) → opt = true ∧ r = chRBrack :: k

/-- The first character tells the kind. -/
theorem kind_of_head {d : JVal} {tc : Bool} (hd : d.WFt tc) {c : UInt8} {cs : Bytes} (h : d.text = c :: cs) {b : BaseTy}
    (hb : baseOfChar c = some b) : baseOf d.jkind = some b := by
  by_cases hn : d = .null
  · subst hn
    simp only [JVal.text, List.cons.injEq] at h
    obtain ⟨rfl, -⟩ := h
    exact absurd hb (by simp [show baseOfChar 0x6E = none by decide])
  · obtain ⟨c', cs', b', h1, h2, h3⟩ := baseOfChar_text hd hn
    rw [h] at h1
    simp only [List.cons.injEq] at h1
    obtain ⟨rfl, -⟩ := h1
    rw [hb] at h2
    rw [h3, h2]

theorem kind_bool {d : JVal} (h : d.jkind = .bool) : d = .tru ∨ d = .fls := by
  cases d <;> simp [JVal.jkind] at h <;> simp

theorem kind_number {d : JVal} (h : d.jkind = .number) : ∃ x, d = .num x := by
  cases d <;> simp [JVal.jkind] at h
  exact ⟨_, rfl⟩

theorem kind_string {d : JVal} (h : d.jkind = .string) : ∃ x, d = .str x := by
  cases d <;> simp [JVal.jkind] at h
  exact ⟨_, rfl⟩

theorem kind_array {d : JVal} (h : d.jkind = .array) : ∃ w x, d = .arr w x := by
  cases d <;> simp [JVal.jkind] at h
  exact ⟨_, _, rfl⟩

theorem kind_object {d : JVal} (h : d.jkind = .object) : ∃ w x, d = .obj w x := by
  cases d <;> simp [JVal.jkind] at h
  exact ⟨_, _, rfl⟩

theorem starts_bool {d : JVal} {tc : Bool} (hd : d.WFt tc) {c : UInt8} {cs : Bytes} (h : d.text = c :: cs) (hc : c = chT ∨ c = chF) :
    d = .tru ∨ d = .fls := by
  refine kind_bool (baseOf_inj ((kind_of_head hd h (b := .bool) ?_).trans rfl))
  rcases hc with rfl | rfl <;> decide

theorem starts_number {d : JVal} {tc : Bool} (hd : d.WFt tc) {c : UInt8} {cs : Bytes} (h : d.text = c :: cs)
    (hc : c = chMinus ∨ isDigit c = true) : ∃ x, d = .num x := by
  refine kind_number (baseOf_inj ((kind_of_head hd h (b := .number) ?_).trans rfl))
  rcases hc with rfl | hc
  · decide
  · have : c ≠ chLBrace ∧ c ≠ chLBrack ∧ c ≠ chT ∧ c ≠ chF ∧ c ≠ chQuote := by
      refine ⟨?_, ?_, ?_, ?_, ?_⟩ <;> (rintro rfl; revert hc; decide)
    obtain ⟨h1, h2, h3, h4, h5⟩ := this
    simp [baseOfChar, h1, h2, h3, h4, h5, hc]

theorem starts_string {d : JVal} {tc : Bool} (hd : d.WFt tc) {c : UInt8} {cs : Bytes} (h : d.text = c :: cs) (hc : c = chQuote) :
    ∃ x, d = .str x :=
  kind_string (baseOf_inj ((kind_of_head hd h (b := .string) (by subst hc; decide)).trans rfl))

theorem starts_array {d : JVal} {tc : Bool} (hd : d.WFt tc) {c : UInt8} {cs : Bytes} (h : d.text = c :: cs) (hc : c = chLBrack) :
    ∃ w x, d = .arr w x :=
  kind_array (baseOf_inj ((kind_of_head hd h (b := .array) (by subst hc; decide)).trans rfl))

theorem starts_object {d : JVal} {tc : Bool} (hd : d.WFt tc) {c : UInt8} {cs : Bytes} (h : d.text = c :: cs) (hc : c = chLBrace) :
    ∃ w x, d = .obj w x :=
  kind_object (baseOf_inj ((kind_of_head hd h (b := .cls) (by subst hc; decide)).trans rfl))

/-! ## Values without parts -/

section
variable {cfg : Cfg} (hck : cfg.checked = true) {tc : Bool}
include hck

theorem parseBool_sound {d : JVal} (hd : d.WFt tc) {k : Bytes} {v : Bool} {r : Bytes} (hk : AfterValue k)
    (h : parseBool cfg (d.text ++ k) = .ok (v, r)) : TrimEq r k ∧ (d = .tru ∨ d = .fls) := by
  obtain ⟨c, cs, hc, -⟩ := text_head d hd
  have hbool : d = .tru ∨ d = .fls := by
    apply starts_bool hd hc
    unfold parseBool eatBool at h
    rw [if_pos hck, hc] at h
    by_cases h1 : c = chT
    · exact Or.inl h1
    by_cases h2 : c = chF
    · exact Or.inr h2
    · have e1 : (0x74 == c) = false := by simpa using fun h => h1 h.symm
      have e2 : (0x66 == c) = false := by simpa using fun h => h2 h.symm
      simp [List.isPrefixOf, e1, e2] at h
  refine ⟨?_, hbool⟩
  obtain ⟨b, rfl⟩ : ∃ b : Bool, d = if b then .tru else .fls := by
    rcases hbool with rfl | rfl
    · exact ⟨true, rfl⟩
    · exact ⟨false, rfl⟩
  obtain ⟨r', h1, h2⟩ := parseBool_sem (cfg := cfg) b hk (by simp [hck])
  rw [h1] at h
  simp only [Res.ok.injEq, Prod.mk.injEq] at h
  rw [← h.2]
  exact h2

omit hck in
theorem frac_exp_end {f x k : Bytes} (hf : IsFrac f) (hx : IsExp x) (h : endOfItem (f ++ (x ++ k)) = true ∨ endOfItem (trimChecked (f ++ (x ++ k))) = true) :
    f = [] ∧ x = [] := by
  have key : ∀ c cs, isSpace c = false → atEndOfItem c = false →
      ¬ (endOfItem (c :: cs) = true ∨ endOfItem (trimChecked (c :: cs)) = true) := by
    intro c cs h1 h2
    rw [trimChecked_cons_of_not _ h1]
    simp [endOfItem, h2]
  rcases hf with rfl | ⟨ds, -, rfl⟩
  · refine ⟨rfl, ?_⟩
    rcases hx with rfl | ⟨e, s, ds, he, -, -, rfl⟩
    · rfl
    · exfalso
      refine key e _ ?_ ?_ h <;> rcases he with rfl | rfl <;> decide
  · exact absurd h (key _ _ (by decide) (by decide))

omit hck in
theorem noDig_frac {f x k : Bytes} (hf : IsFrac f) (hx : IsExp x) (hk : AfterValue k) : NoDig (f ++ (x ++ k)) := by
  rcases hf with rfl | ⟨ds, -, rfl⟩
  · rcases hx with rfl | ⟨e, s, ds, he, -, -, rfl⟩
    · exact noDig_after hk
    · intro y hy
      simp only [List.nil_append, List.cons_append, List.head?_cons, Option.some.injEq] at hy
      subst hy
      rcases he with rfl | rfl <;> simp [IsDig]
  · intro y hy
    simp only [List.cons_append, List.head?_cons, Option.some.injEq] at hy
    subst hy
    simp [IsDig]

omit hck in
theorem unsignedNotKnown_rest {bits : Nat} {rc : Bool} {ds rest : Bytes} (hd : IsDigits ds) (hr : NoDig rest) {u : Nat} {b : Bytes}
    (h : unsignedNotKnown cfg bits rc (ds ++ rest) = .ok (u, b)) : b = rest := by
  rw [unsignedNotKnown_digits cfg bits rc ds rest hd hr] at h
  split at h
  · split at h
    · simp only [Res.ok.injEq, Prod.mk.injEq] at h; exact h.2.symm
    · cases h
  · simp only [Res.ok.injEq, Prod.mk.injEq] at h; exact h.2.symm

theorem parseInt_sound {d : JVal} (hd : d.WFt tc) {t : IntTy} {rc : Bool} {k : Bytes} {v : Int} {r : Bytes} (hk : AfterValue k)
    (h : parseInt cfg t rc (d.text ++ k) = .ok (v, r)) :
    TrimEq r k ∧ ∃ m i, (m = [] ∨ m = [0x2D] ∧ t.signed = true) ∧ IsInt i ∧ d = .num (m ++ i) := by
  obtain ⟨c, cs, hc, -⟩ := text_head d hd
  have hnum : ∃ x, d = .num x := by
    apply starts_number hd hc
    unfold parseInt at h
    rw [hc] at h
    split at h
    · unfold parseSigned validateSignedFirst at h
      by_cases h1 : c = chMinus
      · exact Or.inl h1
      · refine Or.inr ?_
        cases h2 : isDigit c with
        | true => rfl
        | false =>
          have h3 : c ≠ ch0 := by rintro rfl; revert h2; decide
          simp [hck, assertWeak_tt, h1, h2, h3] at h
    · unfold parseUnsigned at h
      refine Or.inr ?_
      cases h2 : isDigit c with
      | true => rfl
      | false => simp [hck, assertWeak_tt, whenChecked, h2, ensure] at h
  obtain ⟨x, rfl⟩ := hnum
  have hx : IsNumber x := by simpa [JVal.WFt] using hd
  obtain ⟨m, i, f, e, hm, hi, hf, he, rfl⟩ := hx
  have hdig := isDigits_of_isInt hi
  obtain ⟨y, i', hy, hyd⟩ := isDigits_head hdig
  have hyd' : isDigit y = true := (isDigit_iff y).2 hyd
  have hnd := noDig_frac hf he hk
  simp only [JVal.text, List.append_assoc] at h
  unfold parseInt at h
  split at h
  · rename_i hs
    unfold parseSigned at h
    simp only [Res.bind_eq_ok] at h
    obtain ⟨_, -, ⟨sg, b⟩, hv, ⟨u, b2⟩, hu, b3, ht, _, hend, hres⟩ := h
    have hb : b = i ++ (f ++ (e ++ k)) := by
      unfold validateSignedFirst at hv
      simp only [Res.bind_eq_ok] at hv
      obtain ⟨_, -, c', hc', hv⟩ := hv
      rcases hm with rfl | rfl
      · rw [hy, List.nil_append, List.cons_append] at hc' hv
        simp only [deref_cons, Res.ok.injEq] at hc'
        subst hc'
        have hym : y ≠ chMinus := by rintro rfl; revert hyd'; decide
        rw [if_neg hym, if_pos hck] at hv
        have : b = y :: (i' ++ (f ++ (e ++ k))) := by
          split at hv
          · simp only [Res.ok.injEq, Prod.mk.injEq] at hv; exact hv.2.symm
          · split at hv
            · simp only [Res.bind_eq_ok, Res.ok.injEq, Prod.mk.injEq] at hv
              obtain ⟨_, -, -, h⟩ := hv
              exact h.symm
            · cases hv
        rw [this, hy, List.cons_append]
      · simp only [List.cons_append, List.nil_append, deref_cons, Res.ok.injEq] at hc'
        subst hc'
        simp only [List.cons_append, List.nil_append, List.tail_cons, if_true, Res.ok.injEq, Prod.mk.injEq] at hv
        exact hv.2.symm
    subst hb
    have hb2 := unsignedNotKnown_rest hdig hnd hu
    subst hb2
    simp only [trim_ck hck, Res.ok.injEq] at ht
    subst ht
    simp only [hck, assertWeak_checked] at hend
    have hend' : endOfItem (trimChecked (f ++ (e ++ k))) = true := by
      revert hend; cases endOfItem (trimChecked (f ++ (e ++ k))) <;> simp [ensure]
    obtain ⟨rfl, rfl⟩ := frac_exp_end hf he (Or.inr hend')
    simp only [Res.ok.injEq, Prod.mk.injEq] at hres
    rw [← hres.2]
    refine ⟨trimChecked_te (TrimEq.refl k), m, i, ?_, hi, by simp⟩
    rcases hm with rfl | rfl
    · exact Or.inl rfl
    · exact Or.inr ⟨rfl, hs⟩
  · rename_i hs
    unfold parseUnsigned at h
    simp only [Res.bind_eq_ok, whenChecked, hck, if_true] at h
    obtain ⟨_, -, _, ⟨c', hc', hcd⟩, ⟨u, b2⟩, hu, _, hend, hres⟩ := h
    have hm0 : m = [] := by
      rcases hm with rfl | rfl
      · rfl
      · exfalso
        simp only [List.cons_append, List.nil_append, deref_cons, Res.ok.injEq] at hc'
        subst hc'
        rw [show isDigit 0x2D = false by decide] at hcd
        simp [ensure] at hcd
    subst hm0
    rw [List.nil_append] at hu
    have hb2 := unsignedNotKnown_rest hdig hnd hu
    subst hb2
    simp only [assertWeak_checked] at hend
    have hend' : endOfItem (f ++ (e ++ k)) = true := by
      revert hend; cases endOfItem (f ++ (e ++ k)) <;> simp [ensure]
    obtain ⟨rfl, rfl⟩ := frac_exp_end hf he (Or.inl hend')
    simp only [Res.ok.injEq, Prod.mk.injEq] at hres
    rw [← hres.2]
    exact ⟨TrimEq.refl k, [], i, Or.inl rfl, hi, by simp⟩

omit hck in
theorem skipString_sound {d : JVal} (hd : d.WFt tc) (hlen : d.text.length < 2 ^ 63) {k : Bytes} {q : Range} {r : Bytes}
    (h : skipString cfg false (d.text ++ k) = .ok (q, r)) : r = k ∧ ∃ b, d = .str b ∧ q = { text := b, counter := firstEsc b } := by
  obtain ⟨c, cs, hc, -⟩ := text_head d hd
  obtain ⟨b, rfl⟩ : ∃ b, d = .str b := by
    apply starts_string hd hc
    unfold skipString at h
    rw [hc, List.cons_append] at h
    simp only [Res.bind_eq_ok] at h
    obtain ⟨_, h1, -⟩ := h
    by_cases hq : c = chQuote
    · exact hq
    · simp [ensure, hq] at h1
  rw [str_text_append, skipString_body cfg (by simpa [JVal.WFt] using hd) (str_size hlen) k] at h
  simp only [Res.ok.injEq, Prod.mk.injEq] at h
  exact ⟨h.2.symm, b, rfl, h.1.symm⟩

omit hck in
theorem parseStr_sound {d : JVal} (hd : d.WFt tc) (hlen : d.text.length < 2 ^ 63) {ah : Bool} {k s r : Bytes}
    (h : parseStr cfg ah (d.text ++ k) = .ok (s, r)) : r = k ∧ ∃ b, d = .str b := by
  unfold parseStr at h
  simp only [Res.bind_eq_ok] at h
  obtain ⟨_, -, ⟨q, r'⟩, hq, s', -, hres⟩ := h
  obtain ⟨rfl, b, rfl, -⟩ := skipString_sound hd hlen hq
  simp only [Res.ok.injEq, Prod.mk.injEq] at hres
  exact ⟨hres.2.symm, b, rfl⟩

theorem skipNull_end : skipNull cfg (JVal.null.text ++ []) = .err .unexpectedEndOfData := by
  simp [skipNull, eatLiteral, hck, JVal.text, List.isPrefixOf, ensure]

theorem skipValue_sound {d : JVal} (hd : d.WFt tc) (hdep : d.depth < 4294967296) {kq : Bool} {k : Bytes} {q : Range} {r : Bytes}
    (hk : AfterValue k) (h : skipValue cfg kq (d.text ++ k) = .ok (q, r)) : TrimEq r k ∧ q.text = rangeText kq d := by
  have hn : d = .null → k ≠ [] := by
    rintro rfl rfl
    have := skipNull_end hck
    unfold skipValue at h
    simp only [JVal.text, List.append_nil] at this h
    simp [hck, this, ensure] at h
  obtain ⟨r', h1, h2, -⟩ := skipValue_exact cfg kq d hd hdep k hk (by intro h; simp [hck] at h) (by intro _ h; simp [hck] at h) hn
  rw [h1] at h
  simp only [Res.ok.injEq, Prod.mk.injEq] at h
  obtain ⟨rfl, rfl⟩ := h
  refine ⟨?_, h2⟩
  split
  · exact dropWs_trimEq k
  · exact TrimEq.refl k

/-- The document is neither `null` nor a container, going by the text of its range. -/
theorem customStart_sound {b : Bytes} {u : Unit} (h : customStart cfg b = .ok u) :
    ∃ c cs, b = c :: cs ∧ c ≠ chLBrack ∧ c ≠ chLBrace := by
  unfold customStart at h
  cases b with
  | nil => simp [headIs, hck, ensure] at h
  | cons c cs =>
    refine ⟨c, cs, rfl, ?_⟩
    by_cases h1 : c = chLBrack
    · simp [headIs, hck, ensure, h1] at h
    by_cases h2 : c = chLBrace
    · simp [headIs, hck, ensure, h2] at h
    exact ⟨h1, h2⟩

theorem skipLiteral_lit {d : JVal} (hd : d.WFt tc) {k : Bytes} {q : Range × Bytes} (h : skipLiteral cfg (d.text ++ k) = .ok q) :
    (d.IsLit ∨ d = .null) ∧ skipValue cfg false (d.text ++ k) = .ok q := by
  have hor : d.IsLit ∨ d = .null := by
    cases d with
    | null => exact Or.inr rfl
    | tru => exact Or.inl trivial
    | fls => exact Or.inl trivial
    | num x => exact Or.inl trivial
    | str b => simp [skipLiteral, JVal.text, hck, ensure, show ¬ parseDigit 34 < 10 by decide, isDigit] at h
    | arr w es => cases es <;> simp [skipLiteral, JVal.text, hck, ensure, show ¬ parseDigit 91 < 10 by decide, isDigit] at h
    | obj w ms => cases ms <;> simp [skipLiteral, JVal.text, hck, ensure, show ¬ parseDigit 123 < 10 by decide, isDigit] at h
  refine ⟨hor, ?_⟩
  rcases hor with hl | rfl
  · rw [← skipLiteral_value cfg hd hl]; exact h
  · rw [← h]
    simp [skipLiteral, skipValue, JVal.text]

/-! Quoted literals: what is read of the body has neither quotes nor escapes. -/

/-- What is read in front of `r`. -/
def Eats (x r : Bytes) : Prop := ∃ p, x = p ++ r ∧ ∀ c ∈ p, c ≠ chQuote ∧ c ≠ 0x5C

omit hck in
theorem Eats.trans {x y z : Bytes} : Eats x y → Eats y z → Eats x z := by
  rintro ⟨p, rfl, hp⟩ ⟨q, rfl, hq⟩
  exact ⟨p ++ q, by simp, fun c hc => (List.mem_append.1 hc).elim (hp c) (hq c)⟩

omit hck in
theorem Eats.body {k r : Bytes} : ∀ {b : Bytes}, IsStrBody b → Eats (b ++ chQuote :: k) (chQuote :: r) → r = k := by
  rintro b hb ⟨p, he, hp⟩
  induction p generalizing b with
  | nil =>
    cases hb with
    | nil => simpa using he.symm
    | plain _ h => simp at he; exact absurd he.1 h
    | esc => simp at he
    | uni => simp at he
  | cons x p ih =>
    have hx := hp x (by simp)
    cases hb with
    | nil => simp at he; exact absurd he.1.symm hx.1
    | plain _ h _ hb =>
      simp only [List.cons_append, List.cons.injEq] at he
      exact ih hb he.2 (fun c hc => hp c (by simp [hc]))
    | esc => simp at he; exact absurd he.1.symm hx.2
    | uni => simp at he; exact absurd he.1.symm hx.2

theorem eatBool_eats {x : Bytes} {q : Bool × Bytes} (h : eatBool cfg x = .ok q) : Eats x q.2 := by
  simp only [eatBool, hck, if_true] at h
  split at h
  · obtain ⟨r, rfl⟩ := List.isPrefixOf_iff_prefix.1 ‹_›
    cases h
    exact ⟨txtTrue, by simp, by decide⟩
  · split at h
    · obtain ⟨r, rfl⟩ := List.isPrefixOf_iff_prefix.1 ‹_›
      cases h
      exact ⟨txtFalse, by simp, by decide⟩
    · cases h

theorem validateSignedFirst_eats {x : Bytes} {q : Int × Bytes} (h : validateSignedFirst cfg x = .ok q) : Eats x q.2 := by
  cases x with
  | nil => simp [validateSignedFirst, hck] at h
  | cons c cs =>
    simp only [validateSignedFirst, hck, List.isEmpty_cons, Bool.not_false, assertWeak_tt, Res.ok_bind, deref_cons, if_true, List.tail_cons] at h
    split at h
    · cases h
      subst c
      exact ⟨[chMinus], rfl, by decide⟩
    · split at h
      · cases h
        exact ⟨[], rfl, by simp⟩
      · split at h
        · rw [Res.bind_eq_ok] at h
          obtain ⟨_, -, h⟩ := h
          cases h
          exact ⟨[], rfl, by simp⟩
        · cases h

omit hck in
theorem digitsRun_split : ∀ x : Bytes, ∃ ds rest, x = ds ++ rest ∧ (∀ c ∈ ds, IsDig c) ∧ NoDig rest
  | [] => ⟨[], [], rfl, by simp, by simp [NoDig]⟩
  | c :: cs => by
    by_cases hc : IsDig c
    · obtain ⟨ds, rest, rfl, h1, h2⟩ := digitsRun_split cs
      exact ⟨c :: ds, rest, rfl, by simpa [hc] using h1, h2⟩
    · exact ⟨[], c :: cs, rfl, by simp, by simpa [NoDig] using hc⟩

omit hck in
theorem unsignedNotKnown_eats {bits : Nat} {rc : Bool} {x : Bytes} {q : Nat × Bytes} (h : unsignedNotKnown cfg bits rc x = .ok q) :
    Eats x q.2 := by
  obtain ⟨ds, rest, rfl, h1, h2⟩ := digitsRun_split x
  have he : q.2 = rest := by
    simp only [unsignedNotKnown, notKnownVal_digits ds rest h1 h2] at h
    split at h
    · simp only [Res.bind_eq_ok] at h
      obtain ⟨_, -, _, -, _, -, h⟩ := h
      cases h
      rfl
    · simp only [Res.bind_eq_ok] at h
      obtain ⟨_, -, h⟩ := h
      cases h
      rfl
  rw [he]
  refine ⟨ds, rfl, fun c hc => ?_⟩
  have := h1 c hc
  constructor <;> (rintro rfl; revert this; unfold IsDig; decide)

theorem skipQuote_always {x r : Bytes} (h : skipQuote cfg true x = .ok r) : x = chQuote :: r := by
  cases x with
  | nil => simp [skipQuote, hck, headIs] at h
  | cons c cs =>
    by_cases hc : c = chQuote
    · subst hc
      simpa [skipQuote, hck, headIs, ensure] using h
    · simp [skipQuote, hck, headIs, hc, ensure] at h

/-- A boolean or integer that must be a string. -/
theorem parseLit_sound {d : JVal} (hd : DOk tc d) {l : LitTy} {k : Bytes} {q : Lit × Bytes} (h : parseLit cfg true l (d.text ++ k) = .ok q) :
    TrimEq q.2 k ∧ ∃ b, d = .str b := by
  have start : ∀ {r : Bytes}, skipQuote cfg true (d.text ++ k) = .ok r → ∃ b, d = .str b ∧ IsStrBody b ∧ r = b ++ chQuote :: k := by
    intro r hr
    obtain ⟨c, cs, hc, -⟩ := text_head d hd.wf
    have h1 := skipQuote_always hck hr
    rw [hc, List.cons_append, List.cons.injEq] at h1
    obtain ⟨b, rfl⟩ := starts_string hd.wf hc h1.1
    refine ⟨b, rfl, by simpa [JVal.WFt] using hd.wf, ?_⟩
    rw [str_text_append] at hr
    have := skipQuote_always hck hr
    simpa using this.symm
  cases l with
  | bool =>
    simp only [parseLit, parseBoolQ, Res.bind_eq_ok, trim_ck hck, Res.ok.injEq] at h
    obtain ⟨_, ⟨r1, h1, ⟨x, r2⟩, h2, r3, h3, _, rfl, _, -, rfl⟩, rfl⟩ := h
    obtain ⟨b, rfl, hb, rfl⟩ := start h1
    have h4 := skipQuote_always hck h3
    have h5 := eatBool_eats hck h2
    rw [h4] at h5
    rw [h5.body hb]
    exact ⟨trimChecked_te (TrimEq.refl k), b, rfl⟩
  | int ity rc =>
    simp only [parseLit] at h
    split at h
    · simp only [parseSignedQ, Res.bind_eq_ok, trim_ck hck, Res.ok.injEq] at h
      obtain ⟨_, ⟨r1, h1, ⟨x, r2⟩, h2, ⟨x', r2'⟩, h2', r3, h3, _, rfl, _, -, rfl⟩, rfl⟩ := h
      obtain ⟨b, rfl, hb, rfl⟩ := start h1
      have h4 := skipQuote_always hck h3
      have h5 := (validateSignedFirst_eats hck h2).trans (unsignedNotKnown_eats h2')
      rw [h4] at h5
      rw [h5.body hb]
      exact ⟨trimChecked_te (TrimEq.refl k), b, rfl⟩
    · simp only [parseUnsignedQ, Res.bind_eq_ok, Res.ok.injEq] at h
      obtain ⟨_, ⟨r1, h1, _, -, _, -, ⟨x', r2'⟩, h2', r3, h3, _, -, _, -, rfl⟩, rfl⟩ := h
      obtain ⟨b, rfl, hb, rfl⟩ := start h1
      have h4 := skipQuote_always hck h3
      have h5 := unsignedNotKnown_eats h2'
      rw [h4] at h5
      rw [h5.body hb]
      exact ⟨TrimEq.refl k, b, rfl⟩

/-- Types that take the text of a value. -/
theorem parseTxt_sound {Δ : Env} {nm : List Bytes → Bytes → Prop} {ea : Bool} {d : JVal} (hd : DOk tc d) (ki : TxtKind)
    (hs : (Ty.txt ki).strict = true) :
    SoundU (parseTxt cfg ki) d (Shaped Δ nm ea (.txt ki) d) := by
  intro k v r hk h
  cases ki with
  | rawStr ah =>
    simp only [parseTxt, Res.bind_eq_ok] at h
    obtain ⟨⟨q, r'⟩, hq, hres⟩ := h
    obtain ⟨rfl, b, rfl, -⟩ := skipString_sound hd.wf hd.size hq
    simp only [Res.ok.injEq, Prod.mk.injEq] at hres
    rw [← hres.2]
    exact ⟨TrimEq.refl _, .txtStr rfl⟩
  | date =>
    simp only [parseTxt, parseDate, Res.bind_eq_ok] at h
    obtain ⟨⟨x, r0⟩, ⟨_, -, ⟨q, r'⟩, hq, y, -, hres'⟩, hres⟩ := h
    obtain ⟨rfl, b, rfl, -⟩ := skipString_sound hd.wf hd.size hq
    simp only [Res.ok.injEq, Prod.mk.injEq] at hres hres'
    rw [← hres.2, ← hres'.2]
    exact ⟨TrimEq.refl _, .txtStr rfl⟩
  | raw =>
    simp only [parseTxt, Res.bind_eq_ok] at h
    obtain ⟨⟨q, r'⟩, hq, hres⟩ := h
    simp only [Res.ok.injEq, Prod.mk.injEq] at hres
    rw [← hres.2]
    exact ⟨(skipValue_sound hck hd.wf hd.depth hk hq).1, .raw⟩
  | custom c =>
    simp only [parseTxt, parseCustom, Res.bind_eq_ok] at h
    obtain ⟨⟨x, r0⟩, ⟨⟨x', r1⟩, ht, _, hst, hres'⟩, hres⟩ := h
    simp only [Res.ok.injEq, Prod.mk.injEq] at hres hres'
    obtain ⟨-, rfl⟩ := hres
    obtain ⟨-, rfl⟩ := hres'
    obtain ⟨y, ys, hy, hy1, hy2⟩ := customStart_sound hck hst
    cases c with
    | str =>
      simp only [customText, Res.bind_eq_ok] at ht
      obtain ⟨⟨q, r'⟩, hq, hres⟩ := ht
      obtain ⟨rfl, b, rfl, -⟩ := skipString_sound hd.wf hd.size hq
      simp only [Res.ok.injEq, Prod.mk.injEq] at hres
      rw [← hres.2]
      exact ⟨TrimEq.refl _, .txtStr rfl⟩
    | lit =>
      simp only [customText, Res.bind_eq_ok] at ht
      obtain ⟨⟨q, r'⟩, hq, hres⟩ := ht
      obtain ⟨hlit, hq⟩ := skipLiteral_lit hck hd.wf hq
      obtain ⟨h1, h2⟩ := skipValue_sound hck hd.wf hd.depth hk hq
      simp only [Res.ok.injEq, Prod.mk.injEq] at hres
      obtain ⟨rfl, rfl⟩ := hres
      refine ⟨h1, ?_⟩
      rcases hlit with hl | rfl
      · exact .customLit hl
      · rw [h2] at hy; simp [rangeText] at hy
    | any =>
      simp only [customText, Res.bind_eq_ok] at ht
      obtain ⟨ch, hch, ht⟩ := ht
      split at ht
      · simp only [Res.bind_eq_ok] at ht
        obtain ⟨⟨q, r'⟩, hq, hres⟩ := ht
        obtain ⟨rfl, b, rfl, -⟩ := skipString_sound hd.wf hd.size hq
        simp only [Res.ok.injEq, Prod.mk.injEq] at hres
        rw [← hres.2]
        exact ⟨TrimEq.refl _, .customAny (Or.inr ⟨b, rfl⟩)⟩
      · simp only [Res.bind_eq_ok] at ht
        obtain ⟨⟨q, r'⟩, hq, hres⟩ := ht
        obtain ⟨h1, h2⟩ := skipValue_sound hck hd.wf hd.depth hk hq
        simp only [Res.ok.injEq, Prod.mk.injEq] at hres
        obtain ⟨rfl, rfl⟩ := hres
        refine ⟨h1, ?_⟩
        rw [h2] at hy
        cases d with
        | null => simp [rangeText] at hy
        | tru => exact .customAny (Or.inl trivial)
        | fls => exact .customAny (Or.inl trivial)
        | num x => exact .customAny (Or.inl trivial)
        | str b => exact .customAny (Or.inr ⟨b, rfl⟩)
        | arr w es => cases es <;> simp [rangeText, JVal.text] at hy <;> exact absurd hy.1.symm hy1
        | obj w ms => cases ms <;> simp [rangeText, JVal.text] at hy <;> exact absurd hy.1.symm hy2
  | quoted al l =>
    cases al with
    | false => simp [Ty.strict] at hs
    | true =>
      simp only [parseTxt, Res.bind_eq_ok] at h
      obtain ⟨q, hq, hres⟩ := h
      simp only [Res.ok.injEq, Prod.mk.injEq] at hres
      obtain ⟨h1, b, rfl⟩ := parseLit_sound hck hd hq
      rw [← hres.2]
      exact ⟨h1, .quoted⟩
  | real dbl fmt =>
    simp only [parseTxt, parseReal, Res.bind_eq_ok] at h
    obtain ⟨⟨x, r0⟩, ⟨⟨o, r1⟩, hq, _, -, hres'⟩, hres⟩ := h
    simp only [Res.ok.injEq, Prod.mk.injEq] at hres hres'
    obtain ⟨-, rfl⟩ := hres
    obtain ⟨-, rfl⟩ := hres'
    have hno : ∀ c cs, d.text = c :: cs → isNumberStart c = true := by
      intro c cs he
      cases hs : isNumberStart c
      · rw [he] at hq
        exact absurd hq (realUnknown_head (cfg := cfg.real false dbl) hck hs _)
      · rfl
    cases d with
    | num n =>
      rw [realUnknown_rest hck (cfg.real_dig false dbl).1 (cfg.real_dig false dbl).2.1 (by simpa [JVal.WFt, JVal.text] using hd.wf)
        (numEnd_after hk) hq]
      exact ⟨TrimEq.refl _, .real⟩
    | null => exact absurd (hno _ _ rfl) (by decide)
    | tru => exact absurd (hno _ _ rfl) (by decide)
    | fls => exact absurd (hno _ _ rfl) (by decide)
    | str b => exact absurd (hno _ _ rfl) (by decide)
    | arr w es =>
      cases es
      · exact absurd (hno chLBrack _ (by simp [JVal.text]; rfl)) (by decide)
      · exact absurd (hno chLBrack _ (by simp [JVal.text]; rfl)) (by decide)
    | obj w ms =>
      cases ms
      · exact absurd (hno chLBrace _ (by simp [JVal.text]; rfl)) (by decide)
      · exact absurd (hno chLBrace _ (by simp [JVal.text]; rfl)) (by decide)

/-! ## Arrays -/

theorem arrLoop_sound {p : Bytes → Res (Val × Bytes)} {P : JVal → Prop} {w k : Bytes} (hw : IsTail tc w) :
    ∀ (tl : JElems) (pre : Bytes) (d : JVal) (post : Bytes) (vs : List Val) (r : Bytes), EOk tc (.cons pre d post tl) →
      (∀ x, x ∈ (JElems.cons pre d post tl).toList → DOk tc x → SoundU p x (P x)) →
      arrLoop cfg p (d.text ++ arrAfter post tl w k) = .ok (vs, r) →
      TrimEq r k ∧ ∀ x ∈ (JElems.cons pre d post tl).toList, P x
  | tl, pre, d, post, vs, r, hok, hs, h => by
    obtain ⟨-, hd, hpost, htl⟩ := (by simpa only [JElems.WFt] using hok.wf : IsWs pre ∧ d.WFt tc ∧ IsWs post ∧ tl.WFt tc)
    unfold arrLoop at h
    simp only [Res.bind_eq_ok] at h
    obtain ⟨_, -, ⟨v, b⟩, hv, b1, hb1, _, -, b2, hb2, _, -, c, hc, h⟩ := h
    obtain ⟨htr, hP⟩ := hs d (by simp [JElems.toList]) hok.cons.1 _ _ _ (arrAfter_after (tl := tl) (k := k) hpost hw) hv
    simp only [trim_ck hck, Res.ok.injEq] at hb1
    simp only [moveNext_ck hck, Res.ok.injEq] at hb2
    have hmv : b2 = arrRest w k tl := by
      rw [← hb2, ← hb1, moveNextChecked_trim, moveNextChecked_trimEq htr, moveNext_arr hpost htl hw]
    subst hmv
    match tl, h, hc with
    | .nil, h, hc =>
      simp only [arrRest, deref_cons, Res.ok.injEq] at hc
      subst hc
      simp only [if_true, Res.ok.injEq, Prod.mk.injEq, arrRest, List.tail_cons] at h
      obtain ⟨-, rfl⟩ := h
      refine ⟨trimChecked_te (TrimEq.refl k), ?_⟩
      intro x hx
      simp only [JElems.toList, List.mem_singleton] at hx
      subst hx
      exact hP
    | .cons pre' d' post' tl', h, hc =>
      have hd' : d'.WFt tc := by simp only [JElems.WFt] at htl; exact htl.2.1
      obtain ⟨x, xs, hx, hxn⟩ := arrRest_cons_head (w := w) (k := k) (pre := pre') (post := post') (tl := tl') hd'
      rw [hx] at hc
      simp only [deref_cons, Res.ok.injEq] at hc
      subst hc
      rw [if_neg hxn] at h
      split at h
      · simp only [Res.bind_eq_ok] at h
        obtain ⟨⟨vs', r'⟩, h1, h2⟩ := h
        simp only [Res.ok.injEq, Prod.mk.injEq] at h2
        obtain ⟨ht, hall⟩ := arrLoop_sound hw tl' pre' d' post' vs' r' hok.cons.2
          (fun y hy => hs y (by simp only [JElems.toList, List.mem_cons] at hy ⊢; exact Or.inr hy)) h1
        rw [← h2.2]
        refine ⟨ht, ?_⟩
        intro y hy
        simp only [JElems.toList, List.mem_cons] at hy hall
        rcases hy with rfl | hy
        · exact hP
        · exact hall y hy
      · cases h

theorem parseArr_sound {p : Bytes → Res (Val × Bytes)} {P : JVal → Prop} {d : JVal} (hd : DOk false d)
    (hs : ∀ x, DOk false x → SoundU p x (P x)) :
    SoundU (parseArr cfg p) d (∃ w es, d = .arr w es ∧ ∀ x ∈ es.toList, P x) := by
  intro k v r hk h
  unfold parseArr at h
  simp only [Res.bind_eq_ok, trim_ck hck, Res.ok.injEq] at h
  obtain ⟨b, rfl, _, hst, b1, hb1, c, hc, h⟩ := h
  rw [trimChecked_text d hd.wf] at hst hb1
  obtain ⟨c0, cs0, hc0, -⟩ := text_head d hd.wf
  obtain ⟨w, es, rfl⟩ : ∃ w es, d = .arr w es := by
    apply starts_array hd.wf hc0
    by_cases hq : c0 = chLBrack
    · exact hq
    · simp [hck, hc0, headIs, ensure, hq] at hst
  have hwf := hd.wf
  simp only [JVal.WFt] at hwf
  match es, h with
  | .nil, h =>
    have hw : IsWs w := by
      rcases hwf.1 with h | ⟨h, -⟩
      · exact h
      · cases h
    have e1 : ((JVal.arr w .nil).text ++ k).tail = w ++ chRBrack :: k := by simp [JVal.text]
    have h2 : trimUncheckedEnd cfg (w ++ chRBrack :: k) = .ok (chRBrack :: k) := trimUncheckedEnd_of_ok <| by
      rw [trimUnchecked_ws _ _ hw, trimUnchecked_cons_of_not _ (by decide)]
    rw [e1, h2] at hb1
    simp only [Res.ok.injEq] at hb1
    subst hb1
    simp only [derefEnd_cons, Res.ok.injEq] at hc
    subst hc
    simp only [if_true, Res.ok.injEq, Prod.mk.injEq, List.tail_cons] at h
    rw [← h.2]
    exact ⟨trimChecked_te (TrimEq.refl k), w, .nil, rfl, by simp [JElems.toList]⟩
  | .cons pre x post tl, h =>
    have htl := hwf.2
    simp only [JElems.WFt] at htl
    rw [arr_text] at hb1
    obtain ⟨c', cs, hx, hsp, htok, -⟩ := text_head x htl.2.1
    have h2 : trimUncheckedEnd cfg (pre ++ (x.text ++ arrAfter post tl w k)) = .ok (x.text ++ arrAfter post tl w k) := trimUncheckedEnd_of_ok <| by
      rw [trimUnchecked_ws _ _ htl.1, hx, List.cons_append, trimUnchecked_cons_of_not _ hsp]
    rw [List.tail_cons, h2] at hb1
    simp only [Res.ok.injEq] at hb1
    subst hb1
    rw [hx, List.cons_append, derefEnd_cons] at hc
    simp only [Res.ok.injEq] at hc
    subst hc
    have h4 : c' ≠ chRBrack := by rintro rfl; simp [isTokenAfterValue] at htok
    rw [if_neg h4] at h
    simp only [Res.bind_eq_ok] at h
    obtain ⟨⟨vs, r'⟩, h1, h3⟩ := h
    simp only [Res.ok.injEq, Prod.mk.injEq] at h3
    obtain ⟨ht, hall⟩ := arrLoop_sound hck hwf.1 tl pre x post vs r' hd.elems (fun y _ hy => hs y hy) h1
    rw [← h3.2]
    exact ⟨ht, w, _, rfl, hall⟩

/-! ## Maps -/

omit hck in
theorem trimEndOfName_sound {pc qc k b : Bytes} {d : JVal} (hd : d.WFt tc) (hpc : IsWs pc) (hqc : IsWs qc)
    (h : trimEndOfName cfg (pc ++ chColon :: (qc ++ (d.text ++ k))) = .ok b) : b = d.text ++ k := by
  rw [trimEndOfName_ck (text_nonsp hd k) hpc hqc, trimChecked_text d hd] at h
  simp only [Res.ok.injEq] at h
  exact h.symm

theorem mapLoop_sound {p : Bytes → Res (Val × Bytes)} {P : JVal → Prop} {w k : Bytes} (hw : IsTail tc w) :
    ∀ (tl : JMems) (pre n pc qc : Bytes) (d : JVal) (post : Bytes) (vs : List (Bytes × Val)) (r : Bytes),
      MOk tc (.cons pre n pc qc d post tl) → (∀ x, DOk tc x → SoundU p x (P x)) →
      mapLoop cfg p (objRest w k (.cons pre n pc qc d post tl)) = .ok (vs, r) →
      TrimEq r k ∧ ∀ x ∈ (JMems.cons pre n pc qc d post tl).toList, P x.2
  | tl, pre, n, pc, qc, d, post, vs, r, hok, hs, h => by
    obtain ⟨-, hn, hpc, hqc, hd, hpost, htl⟩ := (by simpa only [JMems.WFt] using hok.wf :
      IsWs pre ∧ IsStrBody n ∧ IsWs pc ∧ IsWs qc ∧ d.WFt tc ∧ IsWs post ∧ tl.WFt tc)
    unfold mapLoop at h
    simp only [Res.bind_eq_ok] at h
    obtain ⟨_, -, ⟨ky, b0⟩, hk0, b1, hb1, ⟨v, b⟩, hv, b2, hb2, _, -, c, hc, h⟩ := h
    have hobj : objRest w k (.cons pre n pc qc d post tl)
        = (JVal.str n).text ++ (pc ++ chColon :: (qc ++ (d.text ++ objAfter post tl w k))) := by
      simp [objRest, JVal.text]
    rw [hobj] at hk0
    obtain ⟨rfl, -⟩ := parseStr_sound (d := .str n) (tc := tc) (by simpa [JVal.WFt] using hn) (by
      have := hok.size
      simp only [JMems.text, JVal.text, List.length_cons, List.length_append, List.length_nil] at this ⊢
      omega) hk0
    have hb1' := trimEndOfName_sound hd hpc hqc hb1
    subst hb1'
    obtain ⟨htr, hP⟩ := hs d hok.cons.1 _ _ _ (objAfter_after (tl := tl) (k := k) hpost hw) hv
    simp only [moveNext_ck hck, Res.ok.injEq] at hb2
    have hmv : b2 = objRest w k tl := by
      rw [← hb2, moveNextChecked_trimEq htr, moveNext_obj hpost htl hw]
    subst hmv
    match tl, h, hc with
    | .nil, h, hc =>
      simp only [objRest, deref_cons, Res.ok.injEq] at hc
      subst hc
      simp only [if_true, Res.ok.injEq, Prod.mk.injEq, objRest, List.tail_cons] at h
      obtain ⟨-, rfl⟩ := h
      refine ⟨trimChecked_te (TrimEq.refl k), ?_⟩
      intro x hx
      simp only [JMems.toList, List.mem_singleton] at hx
      subst hx
      exact hP
    | .cons pre' n' pc' qc' d' post' tl', h, hc =>
      simp only [objRest, deref_cons, Res.ok.injEq] at hc
      subst hc
      rw [if_neg (by decide)] at h
      split at h
      · simp only [Res.bind_eq_ok] at h
        obtain ⟨⟨vs', r'⟩, h1, h2⟩ := h
        simp only [Res.ok.injEq, Prod.mk.injEq] at h2
        obtain ⟨ht, hall⟩ := mapLoop_sound hw tl' pre' n' pc' qc' d' post' vs' r' hok.cons.2.1 hs h1
        rw [← h2.2]
        refine ⟨ht, ?_⟩
        intro y hy
        simp only [JMems.toList, List.mem_cons] at hy hall
        rcases hy with rfl | hy
        · exact hP
        · exact hall y hy
      · cases h

theorem parseMap_sound {p : Bytes → Res (Val × Bytes)} {P : JVal → Prop} {d : JVal} (hd : DOk false d)
    (hs : ∀ x, DOk false x → SoundU p x (P x)) :
    SoundU (parseMap cfg p) d (∃ w ms, d = .obj w ms ∧ ∀ x ∈ ms.toList, P x.2) := by
  intro k v r hk h
  unfold parseMap at h
  simp only [Res.bind_eq_ok, trim_ck hck, Res.ok.injEq] at h
  obtain ⟨_, hst, b, rfl, _, -, c, hc, h⟩ := h
  obtain ⟨c0, cs0, hc0, -⟩ := text_head d hd.wf
  obtain ⟨w, ms, rfl⟩ : ∃ w es, d = .obj w es := by
    apply starts_object hd.wf hc0
    by_cases hq : c0 = chLBrace
    · exact hq
    · simp [hck, hc0, headIs, ensure, hq] at hst
  have hwf := hd.wf
  simp only [JVal.WFt] at hwf
  match ms, h with
  | .nil, h =>
    have hw : IsWs w := by
      rcases hwf.1 with h | ⟨h, -⟩
      · exact h
      · cases h
    have e1 : trimChecked ((JVal.obj w .nil).text ++ k).tail = chRBrace :: k := by
      simp only [JVal.text, List.cons_append, List.append_assoc, List.tail_cons, List.nil_append]
      rw [trimChecked_ws _ _ hw, trimChecked_cons_of_not _ (by decide)]
    rw [e1] at hc h
    simp only [deref_cons, Res.ok.injEq] at hc
    subst hc
    simp only [if_true, Res.ok.injEq, Prod.mk.injEq, List.tail_cons] at h
    rw [← h.2]
    exact ⟨trimChecked_te (TrimEq.refl k), w, .nil, rfl, by simp [JMems.toList]⟩
  | .cons pre n pc qc x post tl, h =>
    have htl := hwf.2
    simp only [JMems.WFt] at htl
    have e1 : trimChecked ((JVal.obj w (.cons pre n pc qc x post tl)).text ++ k).tail = objRest w k (.cons pre n pc qc x post tl) := by
      rw [obj_text, List.tail_cons, trimChecked_ws _ _ htl.1]
      exact trimChecked_cons_of_not _ (by decide)
    rw [e1] at hc h
    simp only [objRest, deref_cons, Res.ok.injEq] at hc
    subst hc
    rw [if_neg (by decide)] at h
    simp only [Res.bind_eq_ok] at h
    obtain ⟨⟨vs, r'⟩, h1, h3⟩ := h
    simp only [Res.ok.injEq, Prod.mk.injEq] at h3
    obtain ⟨ht, hall⟩ := mapLoop_sound hck hwf.1 tl pre n pc qc x post vs r' hd.mems hs h1
    rw [← h3.2]
    exact ⟨ht, w, _, rfl, hall⟩

end

end Verif
