import Verif.Model.Int
import Verif.Spec.Num

/-!
# Integer output: the digit loop and the reversal
-/

namespace Verif

open Spec

theorem revLoop_spec (n : Nat) : ∀ (xs mid ys : Bytes), mid.length = n →
    revLoop (xs ++ (mid ++ ys)) xs.length (xs.length + mid.length) = xs ++ (mid.reverse ++ ys) := by
  induction n using Nat.strongRecOn with
  | _ n ih =>
    intro xs mid ys hn
    match mid, hn with
    | [], _ =>
      rw [revLoop]; simp
    | [a], _ =>
      rw [revLoop, if_pos (by simp)]
      rw [revLoop, if_neg (by simp)]
      simp
    | a :: b :: l, hn =>
      obtain ⟨m, z, hm⟩ : ∃ m z, b :: l = m ++ [z] := by
        rcases List.eq_nil_or_concat (b :: l) with h | ⟨m, z, h⟩
        · simp at h
        · exact ⟨m, z, by simpa using h⟩
      rw [hm]
      rw [hm] at hn
      rw [revLoop, if_pos (by simp)]
      have hx : (xs ++ (a :: (m ++ [z]) ++ ys)).getD xs.length 0 = a := by simp
      have hy : (xs ++ (a :: (m ++ [z]) ++ ys)).getD (xs.length + (a :: (m ++ [z])).length - 1) 0 = z := by
        have : xs.length + (a :: (m ++ [z])).length - 1 = xs.length + (m.length + 1) := by simp
        rw [this]
        simp
      dsimp only
      rw [hx, hy]
      have hs : ((xs ++ (a :: (m ++ [z]) ++ ys)).set xs.length z).set
          (xs.length + (a :: (m ++ [z])).length - 1) a = (xs ++ [z]) ++ (m ++ (a :: ys)) := by
        have : xs.length + (a :: (m ++ [z])).length - 1 = xs.length + (m.length + 1) := by simp
        rw [this]
        simp
      have hl : xs.length + (a :: (m ++ [z])).length - 1 = (xs ++ [z]).length + m.length := by simp; omega
      rw [hs, hl]
      have := ih m.length (by simp at hn; omega) (xs ++ [z]) m (a :: ys) rfl
      rw [show xs.length + 1 = (xs ++ [z]).length by simp, this]
      simp

theorem revBuf_eq (a : Bytes) : revBuf a = a.reverse := by
  have := revLoop_spec a.length [] a [] rfl
  simpa [revBuf] using this

theorem decVal_append_one (ds : Bytes) (c : UInt8) : decVal (ds ++ [c]) = 10 * decVal ds + digVal c := by
  simp [decVal]

theorem digitChar_dig {n : Nat} (h : n < 10) : IsDig (digitChar n) ∧ digVal (digitChar n) = n := by
  have key : ∀ m : Fin 10, IsDig (digitChar m.val) ∧ digVal (digitChar m.val) = m.val := by
    unfold IsDig; decide
  exact key ⟨n, h⟩

theorem digitChar_ne_zero {n : Nat} (h : n < 10) (h0 : 0 < n) : digitChar n ≠ 0x30 := by
  have key : ∀ m : Fin 10, 0 < m.val → digitChar m.val ≠ 0x30 := by decide
  exact key ⟨n, h⟩ h0

/-- Least significant digit first: the digits written denote `v` and the last one is not zero. -/
theorem emitPairs_spec (v : Nat) :
    (∀ c ∈ emitPairs v, IsDig c) ∧ decVal (emitPairs v).reverse = v ∧
      (0 < v → emitPairs v ≠ [] ∧ (emitPairs v).getLast? ≠ some 0x30) := by
  induction v using Nat.strongRecOn with
  | _ v ih =>
    rw [emitPairs]
    split
    · rename_i h
      obtain ⟨i1, i2, i3⟩ := ih (v / 100) (by omega)
      have d1 := digitChar_dig (n := v % 100 % 10) (by omega)
      have d2 := digitChar_dig (n := v % 100 / 10) (by omega)
      simp only [digits100]
      refine ⟨?_, ?_, ?_⟩
      · intro c hc
        simp only [List.mem_cons] at hc
        rcases hc with rfl | rfl | hc
        · exact d1.1
        · exact d2.1
        · exact i1 c hc
      · simp only [List.reverse_cons]
        rw [decVal_append_one, decVal_append_one, i2, d1.2, d2.2]
        omega
      · intro _
        refine ⟨by simp, ?_⟩
        by_cases hv : 0 < v / 100
        · obtain ⟨i4, i5⟩ := i3 hv
          rw [List.getLast?_cons_cons, List.getLast?_cons]
          cases hq : emitPairs (v / 100) with
          | nil => exact absurd hq i4
          | cons x l =>
            rw [hq] at i5
            simpa [List.getLast?_cons] using i5
        · have : v / 100 = 0 := by omega
          rw [this]
          have hd := digitChar_ne_zero (n := v % 100 / 10) (by omega) (by omega)
          rw [emitPairs]
          simpa using hd
    · rename_i h
      split
      · rename_i h0
        have d1 := digitChar_dig (n := v) (by omega)
        refine ⟨by simpa using d1.1, ?_, ?_⟩
        · simpa [decVal] using d1.2
        · intro _
          have hd := digitChar_ne_zero (n := v) (by omega) h0
          simpa using hd
      · refine ⟨by simp, ?_, ?_⟩
        · simp [decVal]; omega
        · intro hh; omega

/-- A non-empty digit list whose first digit is not zero. -/
theorem isInt_of_reverse {l : Bytes} (h1 : ∀ c ∈ l, IsDig c) (h2 : l ≠ []) (h3 : l.getLast? ≠ some 0x30) :
    IsInt l.reverse := by
  refine Or.inr ⟨⟨by simpa using h2, ?_⟩, ?_⟩
  · intro c hc; exact h1 c (by simpa using hc)
  · simpa [List.head?_reverse] using h3

theorem writeUnsigned_spec (n : Nat) : IsInt (writeUnsigned n) ∧ decVal (writeUnsigned n) = n := by
  unfold writeUnsigned
  split
  · rename_i h; subst h
    exact ⟨Or.inl rfl, by decide⟩
  · rename_i h
    obtain ⟨i1, i2, i3⟩ := emitPairs_spec n
    obtain ⟨i4, i5⟩ := i3 (by omega)
    rw [revBuf_eq]
    exact ⟨isInt_of_reverse i1 i4 i5, i2⟩

theorem writeSigned_nonneg {v : Int} (h : 0 ≤ v) : writeSigned v = writeUnsigned v.toNat := by
  unfold writeSigned writeUnsigned
  rw [if_neg (by omega)]
  by_cases h0 : v = 0
  · subst h0; simp [revBuf_eq]
  · rw [if_neg h0, if_neg (by omega)]

theorem writeSigned_neg (n : Nat) (hn : 0 < n) :
    ∃ ds, writeSigned (-(n : Int)) = 0x2D :: ds ∧ IsInt ds ∧ decVal ds = n := by
  unfold writeSigned
  rw [if_pos (by omega)]
  have ht : ((2 ^ 64 : Int) - ((-(n : Int)).tmod 10) % (2 ^ 64 : Int)) % (2 ^ 64 : Int) = ((n % 10 : Nat) : Int) := by
    rw [Int.neg_tmod, Int.tmod_eq_emod_of_nonneg (by omega)]
    omega
  have hq : (-(n : Int)).tdiv (-10) = ((n / 10 : Nat) : Int) := by
    rw [Int.neg_tdiv_neg, Int.tdiv_eq_ediv_of_nonneg (by omega)]
    omega
  dsimp only
  rw [ht, hq]
  simp only [Int.toNat_natCast, digits100, Nat.mod_mod]
  have d1 := digitChar_dig (n := n % 10) (by omega)
  by_cases h : n / 10 = 0
  · rw [if_pos (by omega)]
    refine ⟨_, rfl, ?_, ?_⟩
    · have hd := digitChar_ne_zero (n := n % 10) (by omega) (by omega)
      exact Or.inr ⟨⟨by simp, by simpa using d1.1⟩, by simpa using hd⟩
    · simp [decVal, d1.2]; omega
  · rw [if_neg (by omega)]
    refine ⟨_, rfl, ?_, ?_⟩
    · obtain ⟨i1, i2, i3⟩ := emitPairs_spec (n / 10)
      obtain ⟨i4, i5⟩ := i3 (by omega)
      rw [revBuf_eq]
      refine isInt_of_reverse ?_ (by simp) ?_
      · intro c hc
        simp only [List.mem_cons] at hc
        rcases hc with rfl | hc
        · exact d1.1
        · exact i1 c hc
      · cases hq : emitPairs (n / 10) with
        | nil => exact absurd hq i4
        | cons x l =>
          rw [hq] at i5
          simpa [List.getLast?_cons] using i5
    · rw [revBuf_eq, List.reverse_cons, decVal_append_one, (emitPairs_spec (n / 10)).2.1, d1.2]
      omega

/-- Output of any integer is its canonical numeral. -/
theorem writeSigned_numeral (v : Int) : IsNumeral (writeSigned v) v := by
  unfold IsNumeral
  split
  · rename_i h
    obtain ⟨ds, h1, h2, h3⟩ := writeSigned_neg v.natAbs (by omega)
    rw [show -(v.natAbs : Int) = v by omega] at h1
    exact ⟨ds, h1, h2, by omega⟩
  · rename_i h
    rw [writeSigned_nonneg (by omega)]
    have := writeUnsigned_spec v.toNat
    exact ⟨this.1, by rw [this.2]; omega⟩

theorem writeUnsigned_numeral (n : Nat) : IsNumeral (writeUnsigned n) n := by
  unfold IsNumeral
  rw [if_neg (by omega)]
  have := writeUnsigned_spec n
  exact ⟨this.1, by rw [this.2]⟩

end Verif
