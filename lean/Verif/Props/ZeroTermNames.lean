import Verif.Proof.ZeroTermNoNames
import Verif.Props.ZeroTerm
import Verif.Spec.Ascii

/-!
# C63 and C64 for every text

For types that are stored without names (`Spec.NameFree`): everything but objects and the kinds of text for which the claims are false.
-/

namespace Verif

open Spec

/-- **C63, partial.**  For every type that is stored without names (scalars, strings, optionals, arrays, maps, tuples, classes stored as arrays,
variants, text and literals in quotes, also if they contain themselves) and every byte string, parsing a `std::string` ends in a value
or an error, never in a read past the terminator.  The string (without a final NUL) must not end in a backslash, unless
`ExcludeSpecialEscapes` is set.  (Missing: objects and the other kinds of text, for which it is false.) -/
theorem C63_no_overrun_partial (t : TCfg) (hck : t.cfg.checked = true) (Δ : Env) (S : Nat → Prop) (rk : Nat → Nat) (R : Nat)
    (hΔ : NameFreeEnv (fun _ => True) S rk R Δ) (ty : Ty) (hty : NameFree (fun _ => True) S ty) (hr : RankOk rk R ty) (s : Bytes)
    (hl : t.cfg.exclSpecial = true ∨ (dropNul s).getLast? ≠ some 0x5C) :
    ∃ f0, ∀ f, f0 ≤ f → fromJsonZ t Δ f ty s ≠ .ub :=
  ⟨_, fun f hf => fromJsonZ_safeN hck hΔ ty hty hr s f hf hl⟩

/-- **C64, partial.**  For the same types, without unsigned numbers in quotes, and every text without NUL bytes that does not end in a
backslash (unless `ExcludeSpecialEscapes` is set): a value read from a `string_view` is also read from a `std::string`, and a text rejected
as a `string_view` is rejected as a `std::string`.  (The `string_view` may also read past the end, see `C64_string_view_overrun`.) -/
theorem C64_same_result_partial (t : TCfg) (hck : t.cfg.checked = true) (hq : t.cfg.endQuote = false) (Δ : Env) (S : Nat → Prop)
    (rk : Nat → Nat) (R : Nat) (hΔ : NameFreeEnv NotUnsigned S rk R Δ) (ty : Ty) (hty : NameFree NotUnsigned S ty)
    (hr : RankOk rk R ty) (s : Bytes) (hn : ∀ c ∈ s, c ≠ 0) (hl : t.cfg.exclSpecial = true ∨ s.getLast? ≠ some 0x5C) :
    ∃ f0, ∀ f, f0 ≤ f →
      (∀ v, fromJson t Δ f ty s = .ok v → fromJsonZ t Δ f ty s = .ok v) ∧
      ((∃ e, fromJson t Δ f ty s = .err e) → ∃ e, fromJsonZ t Δ f ty s = .err e) := by
  refine ⟨(R + 1) * (s.length + 1), fun f hf => ?_⟩
  have h := fromJsonZ_sameN hck hq hΔ ty hty hr s f hf hl hn
  refine ⟨fun v hv => ?_, fun ⟨e, he⟩ => ?_⟩
  · rw [hv] at h; exact h
  · rw [he] at h; exact h

/-- `tuple<V, P, int in quotes>` with `struct V { variant<int, string, vector<V>> }` and `struct P { int x; optional<bool> y; }` stored as an
array. -/
def exNF : Env
  | 0 => .tup [.ref 1, .ref 2, .txt (.quoted true (.int exI32 true))] false
  | 1 => .var [.int exI32 true, .str true, .arr (.ref 1)]
  | _ => .ord [(none, .int exI32 true), (none, .opt .bool)] true

/-- Nesting in `exNF`: the variant is the only thing that consumes nothing. -/
def exNFRank : Nat → Nat
  | 1 => 1
  | _ => 0

theorem exNF_free (lit : LitTy → Prop) (h : lit (.int exI32 true)) : NameFreeEnv lit (· < 3) exNFRank 1 exNF := by
  intro i hi
  match i, hi with
  | 0, _ | 1, _ | 2, _ => simp [exNF, exNFRank, NameFree, TyRank, RankOk, h]

/-- Non-vacuity: a text cut off in the middle. -/
example : ∃ f0, ∀ f, f0 ≤ f → fromJsonZ {} exNF f (.ref 0) asc! "[[\"ab\",[[" ≠ .ub :=
  C63_no_overrun_partial {} rfl exNF _ _ _ (exNF_free _ trivial) (.ref 0) (show (0 : Nat) < 3 by decide) (show (0 : Nat) ≤ 1 by decide) _ (Or.inr (by decide))

/-- Non-vacuity: the whole value is read the same way. -/
example : fromJson {} exNF 19 (.ref 0) asc! "[[[],7],[1],\"-7\"]" =
      .ok (.cls [.alt 2 (.arr [.alt 2 (.arr []), .alt 0 (.int 7)]), .cls [.int 1, .none], .lit (.int (-7))]) ∧
    ∃ f0, ∀ f, f0 ≤ f →
      (∀ v, fromJson {} exNF f (.ref 0) asc! "[[[],7],[1],\"-7\"]" = .ok v →
        fromJsonZ {} exNF f (.ref 0) asc! "[[[],7],[1],\"-7\"]" = .ok v) ∧
      ((∃ e, fromJson {} exNF f (.ref 0) asc! "[[[],7],[1],\"-7\"]" = .err e) →
        ∃ e, fromJsonZ {} exNF f (.ref 0) asc! "[[[],7],[1],\"-7\"]" = .err e) :=
  ⟨by decide +kernel, C64_same_result_partial {} rfl rfl exNF _ _ _ (exNF_free _ rfl) (.ref 0) (show (0 : Nat) < 3 by decide) (show (0 : Nat) ≤ 1 by decide) _ (by decide)
    (Or.inr (by decide))⟩

/-- C63 does not hold for raw JSON, nor for custom types that are stored as literals or as any value: `t` is stepped over as `true`. -/
theorem C63_false_for_raw_json :
    fromJsonZ {} exNF 9 (.txt .raw) asc! "t" = .ub ∧ fromJsonZ {} exNF 9 (.txt (.custom .lit)) asc! "t" = .ub ∧
    fromJsonZ {} exNF 9 (.txt (.custom .any)) asc! "t" = .ub := by decide +kernel

/-- C64 does not hold for unsigned numbers in quotes: the document `"5"` is the number 5 as a `std::string` and is rejected as a
`string_view`, where something has to follow the closing quote. -/
theorem C64_false_for_quoted_unsigned :
    fromJsonZ {} exNF 9 (.txt (.quoted true (.int ⟨32, false⟩ true))) asc! "\"5\"" = .ok (.lit (.int 5)) ∧
    fromJson {} exNF 9 (.txt (.quoted true (.int ⟨32, false⟩ true))) asc! "\"5\"" = .err .unexpectedEndOfData := by decide +kernel

end Verif
