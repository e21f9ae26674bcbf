import Verif.Proof.ClassSafe
import Verif.Props.Typed
import Verif.Spec.Ascii

/-!
# C85: checked parsing of a `std::string_view` looks at no byte behind it

`ub` is the outcome of the model for a read outside of the text, of an iterator moved past the end of a container and of a conversion C++
leaves undefined.  The text is any sequence of bytes: it need not be JSON, nor fit the type.
-/

namespace Verif

open Spec

theorem text_closed {tc : Bool} {d : JVal} (hd : d.WFt tc) : Closed d.text := by
  match d with
  | .null => exact ⟨[0x6E, 0x75, 0x6C], 0x6C, rfl, by decide⟩
  | .tru => exact ⟨[0x74, 0x72, 0x75], 0x65, rfl, by decide⟩
  | .fls => exact ⟨[0x66, 0x61, 0x6C, 0x73], 0x65, rfl, by decide⟩
  | .str b => exact ⟨0x22 :: b, 0x22, by simp [JVal.text], by decide⟩
  | .arr w .nil => exact ⟨0x5B :: w, 0x5D, by simp [JVal.text], by decide⟩
  | .arr w (.cons pre v post tl) =>
    exact ⟨0x5B :: (pre ++ (v.text ++ (post ++ (tl.text ++ w)))), 0x5D, by simp [JVal.text], by decide⟩
  | .obj w .nil => exact ⟨0x7B :: w, 0x7D, by simp [JVal.text], by decide⟩
  | .obj w (.cons pre n pc qc v post tl) =>
    exact ⟨0x7B :: (pre ++ (0x22 :: (n ++ (0x22 :: (pc ++ (0x3A :: (qc ++ (v.text ++ (post ++ (tl.text ++ w)))))))))), 0x7D,
      by simp [JVal.text], by decide⟩
  | .num t =>
    obtain ⟨m, i, f, x, hm, hi, hf, hx, rfl⟩ := hd
    have dig : ∀ {c : UInt8}, IsDig c → isSpace c = false ∧ c ≠ chLBrack ∧ c ≠ chColon := by
      intro c hc
      have h1 := UInt8.le_iff_toNat_le.1 hc.1
      have h2 := UInt8.le_iff_toNat_le.1 hc.2
      simp at h1 h2
      refine ⟨?_, by rintro rfl; revert h2; decide, by rintro rfl; revert h2; decide⟩
      cases h : isSpace c with
      | false => rfl
      | true => rw [isSpace_iff] at h; omega
    have fin : ∀ {ds : Bytes} (p : Bytes), IsDigits ds → Closed (p ++ ds) := by
      intro ds p h
      refine ⟨p ++ ds.dropLast, ds.getLast h.1, ?_, dig (h.2 _ (List.getLast_mem h.1))⟩
      rw [List.append_assoc, List.dropLast_concat_getLast]
    rcases hx with rfl | ⟨e, sg, ds, -, -, hds, rfl⟩
    · rcases hf with rfl | ⟨ds, hds, rfl⟩
      · simpa [JVal.text] using fin m (isInt_digits hi)
      · have := fin (m ++ (i ++ [0x2E])) hds
        simp only [List.append_assoc, List.cons_append, List.nil_append] at this
        simpa [JVal.text] using this
    · simpa [JVal.text, List.append_assoc] using fin (m ++ (i ++ (f ++ e :: sg))) hds

/-- **C85, partial.**  Checked parsing of a `std::string_view` never looks at a byte behind its end, whatever the bytes, if classes list
no optional member before a string, there are no dates and reals, no classes stored in arrays and no exact tuples; where there are
arrays, the text does not end in an opening bracket; and where there are variants or custom types of any kind, it is not
empty and does not end in a colon.  (Missing: the conditions; the theorems below show that the claim is false without them.) -/
theorem C85_in_bounds_partial (t : TCfg) (hck : t.cfg.checked = true) (Δ : Env) (k : Kinds) (rk : Nat → Nat) (R : Nat)
    (hR : Ranked rk R Δ) (hΔ : ∀ i, ShapeWithin k t.exactAll (Δ i)) (ty : Ty) (hty : TyWithin k ty) (hrk : RankOk rk R ty) (s : Bytes)
    (ha : k.arrays = true → ¬ EndsIn 0x5B (dropNul s)) (hp : k.peeking = true → ¬ EndsIn 0x3A (dropNul s) ∧ dropNul s ≠ [])
    (hc : k.closing = false) :
    ∃ f0, ∀ f, f0 ≤ f → fromJson t Δ f ty s ≠ .ub :=
  ⟨_, fun _ hf => fromJson_safe hR hΔ hck hty hrk
    ⟨fun h => Or.inr (ha h), fun h => Or.inr (hp h).1, fun h => by rw [hc] at h; cases h⟩ (fun h => Or.inr (hp h).2) hf⟩

/-- **C85, partial.**  With scalars, strings, maps, classes and tuples only, there is no condition on the text. -/
theorem C85_any_text_partial (t : TCfg) (hck : t.cfg.checked = true) (Δ : Env) (rk : Nat → Nat) (R : Nat)
    (hR : Ranked rk R Δ) (hΔ : ∀ i, ShapeWithin ⟨false, false, false⟩ t.exactAll (Δ i)) (ty : Ty)
    (hty : TyWithin ⟨false, false, false⟩ ty) (hrk : RankOk rk R ty) (s : Bytes) :
    ∃ f0, ∀ f, f0 ≤ f → fromJson t Δ f ty s ≠ .ub :=
  C85_in_bounds_partial t hck Δ _ rk R hR hΔ ty hty hrk s (by simp) (by simp) rfl

/-- **C85, partial.**  A text that is JSON is never left, with arrays, variants and custom types as well, whether or not its shape is
that of the type. -/
theorem C85_json_partial (t : TCfg) (hck : t.cfg.checked = true) (Δ : Env) (rk : Nat → Nat) (R : Nat)
    (hR : Ranked rk R Δ) (hΔ : ∀ i, ShapeWithin ⟨true, true, false⟩ t.exactAll (Δ i)) (ty : Ty)
    (hty : TyWithin ⟨true, true, false⟩ ty) (hrk : RankOk rk R ty) (d : JVal) (hd : d.WF) :
    ∃ f0, ∀ f, f0 ≤ f → fromJson t Δ f ty d.text ≠ .ub := by
  have hn : dropNul d.text = d.text := by unfold dropNul; rw [if_neg (text_last hd)]
  have hcl := text_closed hd
  refine C85_in_bounds_partial t hck Δ _ rk R hR hΔ ty hty hrk _ (fun _ => ?_) (fun _ => ⟨?_, ?_⟩) rfl <;> rw [hn]
  · exact hcl.not_endsIn (Or.inl rfl)
  · exact hcl.not_endsIn (Or.inr rfl)
  · obtain ⟨x, z, e, -⟩ := hcl
    rw [e]; simp

/-- **C85, partial.**  If the byte behind the text can be read and is a quote, as behind the body of a string of another document,
then no byte behind that one is looked at, whatever the text and for all types but dates, reals and classes that list an optional
member before a string. -/
theorem C85_before_quote_partial (t : TCfg) (hck : t.cfg.checked = true) (hq : t.cfg.endQuote = true) (Δ : Env) (rk : Nat → Nat) (R : Nat)
    (hR : Ranked rk R Δ) (hΔ : ∀ i, ShapeWithin ⟨true, true, true⟩ t.exactAll (Δ i)) (ty : Ty)
    (hty : TyWithin ⟨true, true, true⟩ ty) (hrk : RankOk rk R ty) (s : Bytes) :
    ∃ f0, ∀ f, f0 ≤ f → fromJson t Δ f ty s ≠ .ub :=
  ⟨_, fun _ hf => fromJson_safe hR hΔ hck hty hrk ⟨fun _ => Or.inl hq, fun _ => Or.inl hq, fun _ => hq⟩ (fun _ => Or.inl hq) hf⟩

/-- `struct { std::string t; int a; std::optional<bool> b; std::map<std::string, std::tuple<…>> m; }`, a tuple, and a class with a (recursive) variant
and an array in it. -/
def exBEnv : Env
  | 0 => .obj [⟨asc! "t", .str true⟩, ⟨asc! "a", exI32ty⟩, ⟨asc! "b", .opt .bool⟩, ⟨asc! "m", .map (.ref 1)⟩] false
  | 1 => .tup [exI32ty, .opt (.ref 0)] false
  | 2 => .obj [⟨asc! "v", .ref 3⟩, ⟨asc! "x", .arr (.ref 2)⟩, ⟨asc! "c", .txt (.custom .any)⟩] false
  | 3 => .var [exI32ty, .bool, .str true, .arr (.ref 3), .ref 0]
  | 4 => .ord [(none, exI32ty), (some 2, .str false)] true
  | _ => .obj [] false
where exI32ty : Ty := .int exI32 false

/-- Nesting in `exBEnv`: the variant is the only thing that does not consume text. -/
def exBRank : Nat → Nat
  | 3 => 2
  | _ => 0

theorem exBEnv_ranked : Ranked exBRank 2 exBEnv := by
  intro i
  match i with
  | 0 | 1 | 2 | 3 | 4 | _ + 5 => simp [exBEnv, exBEnv.exI32ty, exBRank, TyRank, RankOk]

/-- The types of `exBEnv` as far as they are reachable from class 0. -/
def exBEnv0 : Env
  | 0 => exBEnv 0
  | 1 => exBEnv 1
  | _ => .obj [] false

/-- The types of `exBEnv` without the array class. -/
def exBEnv2 : Env
  | 4 => .obj [] false
  | i => exBEnv i

/-- Non-vacuity: any text, as the class with strings, numbers, a map and tuples. -/
example (s : Bytes) : ∃ f0, ∀ f, f0 ≤ f → fromJson {} exBEnv0 f (.ref 0) s ≠ .ub := by
  refine C85_any_text_partial {} rfl exBEnv0 exBRank 2 (fun i => ?_) (fun i => ?_) (.ref 0) trivial (by decide) s
  · match i with
    | 0 | 1 | _ + 2 => simp [exBEnv0, exBEnv, exBEnv.exI32ty, exBRank, TyRank, RankOk]; try (split <;> decide)
  · match i with
    | 0 | 1 | _ + 2 => simp [exBEnv0, exBEnv, exBEnv.exI32ty, ShapeWithin, StringsFirst, TyWithin, IsStrTy, Ty.isOpt]

/-- Non-vacuity: the text `[{"v":[true,` of an array of classes with variants, which ends early and is refused. -/
example : ∃ f0, ∀ f, f0 ≤ f → fromJson {} exBEnv2 f (.arr (.ref 2)) (asc! "[{\"v\":[true,") ≠ .ub := by
  refine C85_in_bounds_partial {} rfl exBEnv2 ⟨true, true, false⟩ exBRank 2 (fun i => ?_) (fun i => ?_) (.arr (.ref 2)) ⟨rfl, trivial⟩
    (by decide) _ (fun _ => ?_) (fun _ => ⟨?_, by decide⟩) rfl
  · match i with
    | 0 | 1 | 2 | 3 | 4 | _ + 5 => simp [exBEnv2, exBEnv, exBEnv.exI32ty, exBRank, TyRank, RankOk]
  · match i with
    | 0 | 1 | 2 | 3 | 4 | _ + 5 =>
      simp [exBEnv2, exBEnv, exBEnv.exI32ty, ShapeWithin, StringsFirst, TyWithin, IsStrTy, Ty.isOpt]
  · exact Closed.not_endsIn ⟨asc! "[{\"v\":[true", 0x2C, by decide, by decide⟩ (Or.inl rfl)
  · exact Closed.not_endsIn ⟨asc! "[{\"v\":[true", 0x2C, by decide, by decide⟩ (Or.inr rfl)

/-- That text is refused (and the fuel is enough). -/
theorem exB_refused : fromJson {} exBEnv2 99 (.arr (.ref 2)) (asc! "[{\"v\":[true,") = .err .unexpectedEndOfData := by decide +kernel

/-- Non-vacuity: the document `[1]`, read as the class with the variant. -/
example : ∃ f0, ∀ f, f0 ≤ f → fromJson {} exBEnv2 f (.ref 2) (JVal.arr [] (.cons [] (.num [0x31]) [] .nil)).text ≠ .ub := by
  refine C85_json_partial {} rfl exBEnv2 exBRank 2 (fun i => ?_) (fun i => ?_) (.ref 2) trivial (by decide) _
    ⟨Or.inl ws_nil, ws_nil, num1_wf (by unfold IsDig; decide) (by decide), ws_nil, trivial⟩
  · match i with
    | 0 | 1 | 2 | 3 | 4 | _ + 5 => simp [exBEnv2, exBEnv, exBEnv.exI32ty, exBRank, TyRank, RankOk]
  · match i with
    | 0 | 1 | 2 | 3 | 4 | _ + 5 =>
      simp [exBEnv2, exBEnv, exBEnv.exI32ty, ShapeWithin, StringsFirst, TyWithin, IsStrTy, Ty.isOpt]

/-- Non-vacuity: any text with a quote behind it, as the class stored in an array. -/
example (s : Bytes) : ∃ f0, ∀ f, f0 ≤ f → fromJson { cfg := { endQuote := true } } exBEnv f (.ref 4) s ≠ .ub := by
  refine C85_before_quote_partial { cfg := { endQuote := true } } rfl rfl exBEnv exBRank 2 exBEnv_ranked (fun i => ?_) (.ref 4) trivial
    (by decide) s
  match i with
  | 0 | 1 | 2 | 3 | 4 | _ + 5 =>
    simp [exBEnv, exBEnv.exI32ty, ShapeWithin, StringsFirst, TyWithin, IsStrTy, Ty.isOpt]

/-- Types for the cases in which the claim is false. -/
def exUbEnv : Env
  | 0 => .obj [⟨asc! "a", .opt .bool⟩, ⟨asc! "t", .str true⟩] false
  | 1 => .ord [(none, .int exI32 false), (none, .int exI32 false)] false
  | 2 => .tup [.bool] true
  | 3 => .obj [⟨asc! "a", .ref 4⟩] false
  | 4 => .var [.int exI32 false, .bool]
  | _ => .obj [⟨asc! "a", .txt (.custom .any)⟩] false

/-- C85 is false for arrays: behind the lone bracket of `[` the next byte is looked at. -/
theorem C85_false_for_arrays : fromJson {} exUbEnv 9 (.arr .bool) (asc! "[") = .ub := by decide +kernel

/-- C85 is false for classes that list an optional member before a string, even on a document: the `t` of `{"t":1}` is stored while
`a` is looked for, and the text of the string is then sought up to a quote that does not come. -/
theorem C85_false_for_strings : fromJson {} exUbEnv 9 (.ref 0) (asc! "{\"t\":1}") = .ub := by decide +kernel

/-- C85 is false for exact tuples: `[true` is followed behind its end. -/
theorem C85_false_for_exact_tuples : fromJson {} exUbEnv 9 (.ref 2) (asc! "[true") = .ub := by decide +kernel

/-- C85 is false for variants: behind `{"a":` the next byte is looked at. -/
theorem C85_false_for_variants : fromJson {} exUbEnv 9 (.ref 3) (asc! "{\"a\":") = .ub := by decide +kernel

/-- C85 is false for `json_custom` of any kind: the same. -/
theorem C85_false_for_custom : fromJson {} exUbEnv 9 (.ref 5) (asc! "{\"a\":") = .ub := by decide +kernel

/-- `struct { int a; double b; }`. -/
def exUbReal : Env
  | 0 => .obj [⟨asc! "a", .int exI32 false⟩, ⟨asc! "b", .txt (.real true .auto)⟩] false
  | _ => .obj [] false

/-- C85 is false for reals: behind the digits of a number at the end of the text the next byte is looked at; and a number that is stored
and read later overflows a signed integer if its exponent is small enough, though its text is JSON. -/
theorem C85_false_for_reals :
    fromJson {} exUbReal 9 (.txt (.real true .auto)) (asc! "1") = .ub ∧
    fromJson {} exUbReal 9 (.ref 0) (asc! "{\"b\":1.5e-9223372036854775808,\"a\":7}") = .ub := by
  refine ⟨?_, ?_⟩ <;> decide +kernel

end Verif
