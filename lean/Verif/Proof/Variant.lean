import Verif.Proof.TypedTuple

/-!
# Variants: the first character of a document tells its kind, and the kind the alternative
-/

namespace Verif

open Spec

theorem Spec.EnvOk.classes {Δ : Env} (h : ∀ i ms ex, Δ i = .obj ms ex → (ms.map Member.name).Nodup)
    (hv : ∀ i alts, Δ i ≠ .var alts) : EnvOk Δ :=
  ⟨h, fun i alts hi => absurd hi (hv i alts), fun i alts hi => absurd hi (hv i alts)⟩

/-- The entry of `base_map` for a kind of JSON value. -/
def baseOf : JKind → Option BaseTy
  | .null => none
  | .bool => some .bool
  | .number => some .number
  | .string => some .string
  | .array => some .array
  | .object => some .cls

theorem baseOf_inj {a b : JKind} (h : baseOf a = baseOf b) : a = b := by
  cases a <;> cases b <;> first | rfl | cases h

theorem underlying_eq {Δ : Env} {ty : Ty} {κ : JKind} (h : ty.kind Δ = some κ)
    (ho : ∀ j ms ex, ty = .ref j → Δ j ≠ .ord ms ex) : underlying Δ ty = baseOf κ := by
  cases ty with
  | ref i =>
    simp only [Ty.kind] at h
    simp only [underlying]
    cases hi : Δ i with
    | ord ms ex => exact absurd hi (ho i ms ex rfl)
    | obj ms ex => simp only [hi, Option.some.injEq] at h; subst h; rfl
    | tup ms ex => simp only [hi, Option.some.injEq] at h; subst h; rfl
    | var alts => simp only [hi] at h; cases h
    | ivar tag sw alts => simp only [hi] at h; cases h
  | opt ty => cases h
  | bool => cases h; rfl
  | int t rc => cases h; rfl
  | str ah => cases h; rfl
  | txt k =>
    simp only [Ty.kind] at h
    match k with
    | .rawStr _ | .date | .custom .str | .real .. => cases h; rfl
    | .custom .lit | .custom .any | .raw => cases h
  | arr t => cases h; rfl
  | map t => cases h; rfl

/-- A document read as a type is of the kind the type is stored as. -/
theorem reads_jkind {Δ : Env} {nm : List Bytes → Bytes → Prop} {ea : Bool} {ty : Ty} {d : JVal} {v : Val} {κ : JKind}
    (h : Reads Δ nm ea ty d v) (hk : ty.kind Δ = some κ) : d.jkind = κ := by
  cases h with
  | obj hi => simp only [Ty.kind, hi, Option.some.injEq] at hk; exact hk
  | tup hi => simp only [Ty.kind, hi, Option.some.injEq] at hk; exact hk
  | ord hi => simp only [Ty.kind, hi, Option.some.injEq] at hk; exact hk
  | var hi => simp only [Ty.kind, hi] at hk; cases hk
  | ivar hi => simp only [Ty.kind, hi] at hk; cases hk
  | null => cases hk
  | some => cases hk
  | txt h =>
    simp only [Ty.kind] at hk
    cases h with
    | rawStr => cases hk; rfl
    | date => cases hk; rfl
    | customStr => cases hk; rfl
    | @customLit c d hc =>
      match c with
      | .str => exact absurd rfl hc
      | .lit | .any => cases hk
    | raw => cases hk
    | real => cases hk; rfl
    | quoted => cases hk
    | bare => cases hk
  | _ => simp only [Ty.kind, Option.some.injEq] at hk; exact hk

theorem findAlt_get {Δ : Env} {b : BaseTy} : (alts : List Ty) → (n k : Nat) → (ty : Ty) → alts[k]? = some ty →
    underlying Δ ty = some b → (∀ j ty', j < k → alts[j]? = some ty' → underlying Δ ty' ≠ some b) →
    findAlt Δ b n alts = some (n + k, ty)
  | [], _, _, _, h, _, _ => by simp at h
  | t :: ts, n, 0, ty, h, hu, _ => by
    obtain rfl : t = ty := by simpa using h
    rw [findAlt, if_pos hu]
    rfl
  | t :: ts, n, k + 1, ty, h, hu, hlt => by
    rw [findAlt, if_neg (hlt 0 t (by omega) rfl), findAlt_get ts (n + 1) k ty (by simpa using h) hu
      (fun j ty' hj h' => hlt (j + 1) ty' (by omega) (by simpa using h'))]
    rw [show n + 1 + k = n + (k + 1) by omega]

theorem nodup_get_inj {α : Type} {N : List α} (h : N.Nodup) {i j : Nat} {n : α} (hi : N[i]? = some n)
    (hj : N[j]? = some n) : i = j := by
  induction N generalizing i j with
  | nil => simp at hi
  | cons m N ih =>
    rw [List.nodup_cons] at h
    cases i <;> cases j
    · rfl
    · simp only [List.getElem?_cons_zero, Option.some.injEq, List.getElem?_cons_succ] at hi hj
      subst hi
      exact absurd (List.mem_of_getElem? hj) h.1
    · simp only [List.getElem?_cons_zero, Option.some.injEq, List.getElem?_cons_succ] at hi hj
      subst hj
      exact absurd (List.mem_of_getElem? hi) h.1
    · exact congrArg (· + 1) (ih h.2 (by simpa using hi) (by simpa using hj))

/-- The alternative that reads a document is the first one of the kind of the document. -/
theorem findAlt_reads {Δ : Env} (henv : EnvOk Δ) {nm : List Bytes → Bytes → Prop} {ea : Bool} {i k : Nat} {alts : List Ty}
    {ty : Ty} {d : JVal} {v : Val} {b : BaseTy} (hi : Δ i = .var alts) (hty : alts[k]? = some ty) (h : Reads Δ nm ea ty d v)
    (hb : baseOf d.jkind = some b) : findAlt Δ b 0 alts = some (k, ty) := by
  obtain ⟨hs, ho⟩ := henv.kind i alts hi ty (List.mem_of_getElem? hty)
  obtain ⟨κ, hκ⟩ := Option.isSome_iff_exists.1 hs
  have hd := reads_jkind h hκ
  subst hd
  have := findAlt_get (Δ := Δ) (b := b) alts 0 k ty hty (by rw [underlying_eq hκ ho, hb]) ?_
  · rwa [Nat.zero_add] at this
  · intro j ty' hj hty' hu
    obtain ⟨hs', ho'⟩ := henv.kind i alts hi ty' (List.mem_of_getElem? hty')
    obtain ⟨κ', hκ'⟩ := Option.isSome_iff_exists.1 hs'
    rw [underlying_eq hκ' ho', ← hb] at hu
    have heq := baseOf_inj hu
    subst heq
    have hnd := henv.kinds i alts hi
    have h1 : (alts.map (Ty.kind Δ))[j]? = some (some d.jkind) := by rw [List.getElem?_map, hty', ← hκ']; rfl
    have h2 : (alts.map (Ty.kind Δ))[k]? = some (some d.jkind) := by rw [List.getElem?_map, hty, ← hκ]; rfl
    have := nodup_get_inj hnd h1 h2
    omega

/-- The first character of a document tells its kind. -/
theorem baseOfChar_num {d : JVal} (hd : ∀ n, d = .num n → IsNumber n) (hne : d ≠ .null) :
    ∃ c cs b, d.text = c :: cs ∧ baseOfChar c = some b ∧ baseOf d.jkind = some b := by
  match d with
  | .null => exact absurd rfl hne
  | .tru => exact ⟨_, _, _, rfl, by decide, rfl⟩
  | .fls => exact ⟨_, _, _, rfl, by decide, rfl⟩
  | .str b => exact ⟨_, _, _, rfl, by decide, rfl⟩
  | .arr w es => cases es <;> exact ⟨_, _, _, rfl, by decide, rfl⟩
  | .obj w es => cases es <;> exact ⟨_, _, _, rfl, by decide, rfl⟩
  | .num n =>
    have ht : IsNumber n := hd n rfl
    obtain ⟨x, t', rfl, hx⟩ : ∃ x t', n = x :: t' ∧ (x = chMinus ∨ IsDig x) := by
      obtain ⟨m, i, f, e, hm, hi, _, _, rfl⟩ := ht
      obtain ⟨y, i', rfl, hy⟩ := isDigits_head (isInt_digits hi)
      rcases hm with rfl | rfl
      · exact ⟨y, _, rfl, Or.inr hy⟩
      · exact ⟨_, _, rfl, Or.inl rfl⟩
    rw [← isDigit_iff] at hx
    refine ⟨x, t', .number, rfl, ?_, rfl⟩
    rcases hx with rfl | hx
    · decide
    · have : x ≠ chLBrace ∧ x ≠ chLBrack ∧ x ≠ chT ∧ x ≠ chF ∧ x ≠ chQuote := by
        refine ⟨?_, ?_, ?_, ?_, ?_⟩ <;> (rintro rfl; revert hx; decide)
      obtain ⟨h1, h2, h3, h4, h5⟩ := this
      simp [baseOfChar, h1, h2, h3, h4, h5, hx]

theorem wft_num {tc : Bool} {d : JVal} (hd : d.WFt tc) : ∀ n, d = .num n → IsNumber n := by
  rintro n rfl
  simpa [JVal.WFt] using hd

theorem baseOfChar_text {tc : Bool} {d : JVal} (hd : d.WFt tc) (hne : d ≠ .null) :
    ∃ c cs b, d.text = c :: cs ∧ baseOfChar c = some b ∧ baseOf d.jkind = some b := baseOfChar_num (wft_num hd) hne

theorem headIs_quote_num {d : JVal} (hd : ∀ n, d = .num n → IsNumber n) (hne : d ≠ .null) :
    (headIs (· == chQuote) d.text = true ↔ d.jkind = .string) := by
  match d with
  | .null => exact absurd rfl hne
  | .tru => decide
  | .fls => decide
  | .str b => simp [JVal.text, headIs, JVal.jkind]
  | .arr w es => cases es <;> simp [JVal.text, headIs, JVal.jkind]
  | .obj w es => cases es <;> simp [JVal.text, headIs, JVal.jkind]
  | .num n =>
    obtain ⟨c, cs, b, h1, h2, h3⟩ := baseOfChar_num hd hne
    rw [h1]
    simp only [headIs, beq_iff_eq, JVal.jkind, reduceCtorEq, iff_false]
    rintro rfl
    simp only [JVal.jkind, baseOf, Option.some.injEq] at h3
    subst h3
    revert h2
    decide

theorem headIs_quote {d : JVal} {tc : Bool} (hd : d.WFt tc) (hne : d ≠ .null) :
    (headIs (· == chQuote) d.text = true ↔ d.jkind = .string) := headIs_quote_num (wft_num hd) hne

/-- The alternative for the text. -/
theorem altOfChar_num {Δ : Env} (henv : EnvOk Δ) {nm : List Bytes → Bytes → Prop} {ea : Bool} (cfg : Cfg) {i k : Nat}
    {alts : List Ty} {ty : Ty} {d : JVal} {v : Val} (hi : Δ i = .var alts) (hty : alts[k]? = some ty) (h : Reads Δ nm ea ty d v)
    (hd : ∀ n, d = .num n → IsNumber n) (hne : d ≠ .null) : ∃ c cs, d.text = c :: cs ∧ altOfChar cfg Δ alts c = .ok (k, ty) := by
  obtain ⟨c, cs, b, h1, h2, h3⟩ := baseOfChar_num hd hne
  refine ⟨c, cs, h1, ?_⟩
  simp only [altOfChar, h2, altOfBase, findAlt_reads henv hi hty h h3]

theorem altOfChar_reads {Δ : Env} (henv : EnvOk Δ) {nm : List Bytes → Bytes → Prop} {ea tc : Bool} (cfg : Cfg) {i k : Nat}
    {alts : List Ty} {ty : Ty} {d : JVal} {v : Val} (hi : Δ i = .var alts) (hty : alts[k]? = some ty) (h : Reads Δ nm ea ty d v)
    (hd : d.WFt tc) (hne : d ≠ .null) : ∃ c cs, d.text = c :: cs ∧ altOfChar cfg Δ alts c = .ok (k, ty) :=
  altOfChar_num henv cfg hi hty h (wft_num hd) hne

end Verif
