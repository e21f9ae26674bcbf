import Mathlib.Tactic.FieldSimp
import Mathlib.Tactic.Linarith
import Mathlib.Algebra.Order.Field.Basic
import Verif.Proof.RealIn
import Verif.Proof.SkipExact

/-!
# Values of the significand and exponent read
-/

namespace Verif

open Spec

/-- The number the significand and exponent stand for. -/
def sciVal (sig : Nat) (x : Int) : ℚ := (sig : ℚ) * (10 : ℚ) ^ x

theorem numDenotes_iff (txt : Bytes) (q : ℚ) :
    NumDenotes txt q ↔ ∃ neg i fd e, NumText txt neg i fd e ∧ q = numVal neg i fd e := by
  constructor
  · rintro ⟨neg, i, f, fd, x, e, h1, h2, h3, h4, h5⟩
    exact ⟨neg, i, fd, e, ⟨f, x, h1, h2, h3, h4⟩, by rw [h5, numVal, numAbs, mul_assoc]⟩
  · rintro ⟨neg, i, fd, e, ⟨f, x, h1, h2, h3, h4⟩, h5⟩
    exact ⟨neg, i, f, fd, x, e, h1, h2, h3, h4, by rw [h5, numVal, numAbs, mul_assoc]⟩

theorem fracDigits_dig {f fd : Bytes} (h : FracDigits f fd) : ∀ c ∈ fd, IsDig c := by
  rcases h with ⟨_, rfl⟩ | ⟨_, h⟩
  · simp
  · exact h.2

theorem sciVal_full (i fd : Bytes) (e : Int) :
    sciVal (decVal ((i ++ fd).take (i ++ fd).length)) ((i.length : Int) - ((i ++ fd).length : Nat) + e) = numAbs i fd e := by
  unfold sciVal numAbs
  rw [List.take_length]
  congr 2
  simp
  omega

theorem sciVal_bounds (i fd : Bytes) (e : Int) (k : Nat) (hd : ∀ c ∈ i ++ fd, IsDig c) (hk : k ≤ (i ++ fd).length) :
    sciVal (decVal ((i ++ fd).take k)) ((i.length : Int) - (k : Int) + e) ≤ numAbs i fd e ∧
      numAbs i fd e < sciVal (decVal ((i ++ fd).take k) + 1) ((i.length : Int) - (k : Int) + e) := by
  unfold sciVal numAbs
  have h1 : decVal (i ++ fd) = decVal ((i ++ fd).take k) * 10 ^ ((i ++ fd).length - k) + decVal ((i ++ fd).drop k) := by
    conv_lhs => rw [← List.take_append_drop k (i ++ fd)]
    rw [decVal_append, List.length_drop]
  have h2 : decVal ((i ++ fd).drop k) < 10 ^ ((i ++ fd).length - k) := by
    have := decVal_lt (ds := (i ++ fd).drop k) (fun c hc => hd c (List.mem_of_mem_drop hc))
    rwa [List.length_drop] at this
  have hl : (i ++ fd).length = i.length + fd.length := List.length_append
  set S := decVal ((i ++ fd).take k)
  set r := decVal ((i ++ fd).drop k)
  set m := (i ++ fd).length - k with hm
  have hx : (10 : ℚ) ^ ((i.length : Int) - (k : Int) + e) = 10 ^ m * (10 : ℚ) ^ (e - (fd.length : Int)) := by
    rw [← zpow_natCast, ← zpow_add₀ (by norm_num)]
    congr 1
    omega
  have hp : (0 : ℚ) < (10 : ℚ) ^ (e - (fd.length : Int)) := zpow_pos (by norm_num) _
  have h1' : (decVal (i ++ fd) : ℚ) = S * 10 ^ m + r := by rw [h1]; push_cast; ring
  have h2' : (r : ℚ) < 10 ^ m := by exact_mod_cast h2
  have h0' : (0 : ℚ) ≤ r := by positivity
  rw [hx, h1']
  constructor
  · rw [← mul_assoc]
    exact mul_le_mul_of_nonneg_right (by linarith) hp.le
  · rw [← mul_assoc]
    refine mul_lt_mul_of_pos_right ?_ hp
    push_cast
    linarith

theorem finish_default (cfg : RCfg) (s : Bool) (txt : Bytes) (sign : Int) (sig : Nat) (x : Int)
    (hp : cfg.precise = false) (hx : -2147483648 ≤ x ∧ x ≤ 2147483647) :
    finish cfg s txt sign sig x = .calc sign sig x := by
  unfold finish
  rw [hp, Bool.false_and, if_neg (by decide)]
  split
  · rw [show wrapSigned 32 x = x by unfold wrapSigned; dsimp only; split <;> omega]
  · rfl

theorem addExp_small (cfg : RCfg) (p q : Int) (hp : -9223372036854775808 ≤ p + q ∧ p + q ≤ 9223372036854775807) :
    addExp cfg p q = .ok (p + q) := by
  unfold addExp
  split
  · rw [if_pos (by unfold inInt64; exact hp)]
  · split
    · rfl
    · split
      · rw [if_neg (by omega)]
      · rw [if_neg (by omega)]

/-- What both ways of reading do with a JSON number: the digits in the significand (`k`), the digits the exponent
accounts for (`j`), the decision for `strtod` (`s`). -/
theorem readReal_spec (located : Bool) (cfg : RCfg) (hm : 2 ≤ cfg.maxDig) (hm' : cfg.maxDig ≤ 19) {txt : Bytes}
    {neg : Bool} {i fd : Bytes} {e : Int} (ht : NumText txt neg i fd e) (he : e.natAbs + (i ++ fd).length < 2 ^ 62)
    {c : Bytes} (hn : NumEnd c) (hr : c = [] → cfg.zt = true ∧ cfg.checked = true) :
    ∃ (k j : Nat) (s : Bool) (t' : Bytes), readReal located cfg (txt ++ c) =
        .ok (finish cfg s t' (if neg then -1 else 1) (decVal ((i ++ fd).take k) % 2 ^ 64)
          ((i.length : Int) - (j : Int) + e), c) ∧
      t' = (if located then txt else txt ++ c) ∧ k ≤ (i ++ fd).length ∧ j ≤ (i ++ fd).length ∧
      (cfg.skipEnd = false → j = k ∧ k ≤ cfg.maxDig ∧ (k = (i ++ fd).length ∨
        (cfg.maxDig - 1 ≤ k ∧ (s = true ∨ (located = true ∧ cfg.maxDig < i.length ∧ (i ++ fd).length ≤ 19 ∧
          k = cfg.maxDig))))) ∧
      (cfg.skipEnd = true → located = false → k = (i ++ fd).length ∧ j = k) ∧
      (cfg.skipEnd = true → located = true → ((i ++ fd).length ≤ cfg.maxDig → k = (i ++ fd).length ∧ j = k) ∧
        ((i ++ fd).length ≤ cfg.maxDig ∨ s = true ∨
        (cfg.maxDig < i.length ∧ (i ++ fd).length ≤ 19 ∧ k = i.length))) := by
  obtain ⟨f, x, hi, hf, hx, rfl⟩ := ht
  have hTl : (i ++ fd).length = i.length + fd.length := List.length_append
  have hrr : RRoom cfg c := by
    intro h1 h2 h3
    have := (hr h3).1
    rw [h2] at this
    simp at this
  have hei : ∀ E : Int, (e.natAbs < 2 ^ 63 → E = e) → E = e := fun E h => h (by omega)
  unfold readReal
  cases located
  · rw [if_neg (by decide)]
    obtain ⟨k, s, E, h1, h2, h3, h4, h5⟩ := realUnknown_spec cfg neg i f fd x c e hi hf hx hn hrr (by
      intro h1 h2
      have h3 := List.append_eq_nil_iff.1 (List.append_eq_nil_iff.1 h2).2
      have := (hr h3.2).1
      rw [h1] at this
      simp at this) hm hm'
    obtain rfl := hei E h2
    refine ⟨k, k, s, _, ?_, rfl, h3, h3, ?_, ?_, by simp⟩
    · rw [addExp_small cfg _ _ (by omega), Res.ok_bind] at h1
      simp only [List.append_assoc, Bool.false_eq_true, if_false] at h1 ⊢
      exact h1
    · intro h
      refine ⟨rfl, (h5 h).1, ?_⟩
      rcases (h5 h).2 with h6 | ⟨h6, h7⟩
      · exact Or.inl h6
      · exact Or.inr ⟨h7, Or.inl h6⟩
    · intro h _
      exact ⟨h4 h, rfl⟩
  · rw [if_pos rfl]
    obtain ⟨k, s, E, h1, h2, h3, h4⟩ := realKnown_spec cfg neg i f fd x c e hi hf hx hn hrr
    obtain rfl := hei E h2
    have hsk := skipNumber_range cfg.base neg i f x c hi (fracDigits_isFrac hf) (expDenotes_isExp hx) hn (by
      intro h1 h2
      have := (hr h2).2
      have h1' : cfg.checked = false := h1
      rw [h1'] at this
      simp at this)
    have htx : (numRange neg i f x).text = (if neg then [chMinus] else []) ++ (i ++ (f ++ x)) := rfl
    rw [← htx, hsk, Res.ok_bind]
    dsimp only
    rw [h1, if_pos (by unfold inInt64; omega), Res.ok_bind]
    refine ⟨k, min (i ++ fd).length cfg.maxDig, s, _, rfl, rfl, ?_, by omega, ?_, by simp, ?_⟩
    · rw [h3]
      split
      · split <;> omega
      · omega
    · intro h
      rw [h] at h3
      simp only [Bool.false_eq_true, if_false] at h3
      refine ⟨h3.symm, by omega, ?_⟩
      rcases h4 with h4 | h4 | h4
      · exact Or.inl (by omega)
      · by_cases hT : (i ++ fd).length ≤ cfg.maxDig
        · exact Or.inl (by omega)
        · exact Or.inr ⟨by omega, Or.inl h4⟩
      · exact Or.inr ⟨by omega, Or.inr ⟨rfl, h4.1, h4.2, by omega⟩⟩
    · intro h _
      rw [h] at h3
      simp only [if_true] at h3
      constructor
      · intro hT
        rw [if_neg (by omega)] at h3
        exact ⟨h3, by omega⟩
      · rcases h4 with h4 | h4 | h4
        · exact Or.inl h4
        · exact Or.inr (Or.inl h4)
        · rw [if_pos h4.1] at h3
          exact Or.inr (Or.inr ⟨h4.1, h4.2, h3⟩)

/-- The digits of a number. -/
theorem numText_digits {txt : Bytes} {neg : Bool} {i fd : Bytes} {e : Int} (ht : NumText txt neg i fd e) :
    IsInt i ∧ ∀ c ∈ i ++ fd, IsDig c := by
  obtain ⟨f, x, hi, hf, hx, -⟩ := ht
  refine ⟨hi, fun c hc => ?_⟩
  rcases List.mem_append.1 hc with h | h
  · exact (isInt_digits hi).2 c h
  · exact fracDigits_dig hf c h

theorem numAbs_full (i fd : Bytes) (e : Int) (hd : ∀ c ∈ i ++ fd, IsDig c) (k : Nat) (hk : k = (i ++ fd).length) (hT : k ≤ 19) :
    ((decVal ((i ++ fd).take k) % 2 ^ 64 : Nat) : ℚ) * 10 ^ ((i.length : Int) - (k : Int) + e) = numAbs i fd e := by
  subst hk
  rw [Nat.mod_eq_of_lt (decVal_take_lt hd _ (by omega))]
  have := sciVal_full i fd e
  unfold sciVal at this
  rw [this]

theorem numVal_full (neg : Bool) (i fd : Bytes) (e : Int) (hd : ∀ c ∈ i ++ fd, IsDig c) (k : Nat)
    (hk : k = (i ++ fd).length) (hT : k ≤ 19) :
    (((if neg then -1 else 1 : Int) : ℚ)) * (((decVal ((i ++ fd).take k) % 2 ^ 64 : Nat) : ℚ) *
        10 ^ ((i.length : Int) - (k : Int) + e)) = numVal neg i fd e := by
  subst hk
  rw [Nat.mod_eq_of_lt (decVal_take_lt hd _ (by omega))]
  have := sciVal_full i fd e
  unfold sciVal at this
  rw [this, numVal]
  cases neg <;> simp

/-- The first `k` digits of a number that does not start with 0. -/
theorem lead_take {i : Bytes} (hi : IsInt i) (h0 : i ≠ [0x30]) (fd : Bytes) (hfd : ∀ c ∈ fd, IsDig c) (k : Nat)
    (hk : 1 ≤ k) (hk' : k ≤ (i ++ fd).length) : 10 ^ (k - 1) ≤ decVal ((i ++ fd).take k) := by
  have hint : IsInt ((i ++ fd).take k) := by
    rcases hi with rfl | ⟨⟨hne, hd⟩, hh⟩
    · exact absurd rfl h0
    · right
      refine ⟨⟨?_, ?_⟩, ?_⟩
      · intro h
        have := congrArg List.length h
        rw [List.length_take, List.length_nil] at this
        omega
      · intro c hc
        rcases List.mem_append.1 (List.mem_of_mem_take hc) with h | h
        · exact hd c h
        · exact hfd c h
      · cases i with
        | nil => exact absurd rfl hne
        | cons x t =>
          obtain ⟨m, rfl⟩ : ∃ m, k = m + 1 := ⟨k - 1, by omega⟩
          simpa using hh
  have hpos : 0 < decVal ((i ++ fd).take k) := by
    by_cases hk2 : 2 ≤ k
    · have := isInt_take_pos hint (by rw [List.length_take]; omega) k hk
      rwa [List.take_of_length_le (by rw [List.length_take]; omega)] at this
    · obtain rfl : k = 1 := by omega
      rcases hi with rfl | ⟨⟨hne, hd⟩, hh⟩
      · exact absurd rfl h0
      · cases i with
        | nil => exact absurd rfl hne
        | cons x t =>
          have hx := hd x (by simp)
          have hx0 : x ≠ 0x30 := by simpa using hh
          have h1 : (0x30 : UInt8).toNat ≤ x.toNat := hx.1
          have h2 : x.toNat ≠ (0x30 : UInt8).toNat := fun e => hx0 (UInt8.toNat_inj.1 e)
          have h3 : (0x30 : UInt8).toNat = 48 := rfl
          simp only [List.cons_append, List.take_succ_cons, List.take_zero, decVal, digVal, List.foldl]
          omega
  have := (isInt_hasDigits hint hpos).2.1
  rwa [List.length_take, Nat.min_eq_left hk'] at this

end Verif
