import Verif.Model.Options

/-!
# Proofs about option words
-/

namespace Verif

/-- All bits of a list of options together. -/
def optTotal : List Opt → Nat
  | [] => 0
  | o :: os => o.width + optTotal os

theorem opt_end_le : (L : List Opt) → (i : Nat) → optStart L i + optWidth L i ≤ optTotal L
  | [], i => by simp [optStart, optWidth, optTotal]
  | o :: os, 0 => by simp [optStart, optWidth, optTotal]
  | o :: os, i + 1 => by
    have := opt_end_le os i
    simp only [optWidth] at this
    simp only [optStart, optWidth, optTotal, List.getElem?_cons_succ]
    omega

theorem opt_disjoint : (L : List Opt) → (i j : Nat) → i < j → j < L.length → optStart L i + optWidth L i ≤ optStart L j
  | [], _, _, _, h => by simp at h
  | o :: os, 0, j + 1, _, _ => by simp only [optStart, optWidth, List.getElem?_cons_zero, Option.map_some, Option.getD_some]; omega
  | o :: os, i + 1, j + 1, h, hl => by
    have := opt_disjoint os i j (by omega) (by simpa using hl)
    simp only [optWidth] at this
    simp only [optStart, optWidth, List.getElem?_cons_succ]
    omega

theorem lowMask_bit {n : Nat} (hn : n < 32) (k : Nat) : (lowMask n).getLsbD k = decide (k < n) := by
  have h1 : 2 ^ n < 2 ^ 32 := Nat.pow_lt_pow_right (by omega) hn
  have h0 : 0 < 2 ^ n := Nat.two_pow_pos n
  have h2 : (lowMask n).toNat = 2 ^ n - 1 := by
    unfold lowMask
    rw [BitVec.toNat_sub, BitVec.toNat_shiftLeft]
    have h3 : (1#32).toNat = 1 := rfl
    have h4 : 1 <<< n = 2 ^ n := by simp [Nat.shiftLeft_eq]
    rw [h3, h4, Nat.mod_eq_of_lt h1]
    have : 2 ^ 32 - 1 + 2 ^ n = (2 ^ n - 1) + 2 ^ 32 := by omega
    rw [this, Nat.add_mod_right, Nat.mod_eq_of_lt (by omega)]
  unfold BitVec.getLsbD
  rw [h2, Nat.testBit_two_pow_sub_one]

/-- What is read of an option, bit by bit. -/
theorem getBits_bit {L : List Opt} (hL : optTotal L < 32) (w : BitVec 32) (i k : Nat) :
    (getBits L w i).testBit k = (decide (k < optWidth L i) && w.getLsbD (optStart L i + k)) := by
  have h := opt_end_le L i
  unfold getBits
  rw [← BitVec.getLsbD, BitVec.getLsbD_ushiftRight, BitVec.getLsbD_and, lowMask_bit (by omega)]
  by_cases hk : k < optWidth L i
  · simp [hk, Bool.and_comm]
  · simp [hk]

theorem setBits_bit {L : List Opt} (hL : optTotal L < 32) (w : BitVec 32) (i v k : Nat) (hk : k < 32) :
    (setBits L w i v).getLsbD k =
      (if optStart L i ≤ k ∧ k < optStart L i + optWidth L i then v.testBit (k - optStart L i) else w.getLsbD k) := by
  have h := opt_end_le L i
  unfold setBits
  simp only [BitVec.getLsbD_or, BitVec.getLsbD_and, BitVec.getLsbD_not, BitVec.getLsbD_shiftLeft, BitVec.getLsbD_ofNat,
    lowMask_bit (show optWidth L i < 32 by omega)]
  by_cases h1 : optStart L i ≤ k
  · by_cases h2 : k < optStart L i + optWidth L i
    · have h3 : k - optStart L i < optWidth L i := by omega
      have h4 : ¬ k < optStart L i := by omega
      have h5 : k - optStart L i < 32 := by omega
      simp [hk, h1, h2, h3, h4, h5]
    · have h3 : ¬ k - optStart L i < optWidth L i := by omega
      simp [hk, h1, h2, h3]
  · have h4 : k < optStart L i := by omega
    simp [hk, h1, h4]

theorem getBits_lt {L : List Opt} (hL : optTotal L < 32) (w : BitVec 32) (i : Nat) : getBits L w i < 2 ^ optWidth L i := by
  apply Nat.lt_pow_two_of_testBit
  intro k hk
  rw [getBits_bit hL]
  simp [Nat.not_lt.2 hk]

theorem getBits_setBits {L : List Opt} (hL : optTotal L < 32) (w : BitVec 32) (i v : Nat) (hv : v < 2 ^ optWidth L i) :
    getBits L (setBits L w i v) i = v := by
  have h := opt_end_le L i
  apply Nat.eq_of_testBit_eq
  intro k
  rw [getBits_bit hL]
  by_cases hk : k < optWidth L i
  · rw [setBits_bit hL _ _ _ _ (by omega), if_pos (by omega)]
    simp [hk]
  · have : v.testBit k = false := Nat.testBit_lt_two_pow (Nat.lt_of_lt_of_le hv (Nat.pow_le_pow_right (by omega) (by omega)))
    simp [hk, this]

theorem getBits_setBits_ne {L : List Opt} (hL : optTotal L < 32) (w : BitVec 32) (i j v : Nat) (hi : i < L.length)
    (hj : j < L.length) (hne : i ≠ j) : getBits L (setBits L w i v) j = getBits L w j := by
  have h := opt_end_le L j
  apply Nat.eq_of_testBit_eq
  intro k
  rw [getBits_bit hL, getBits_bit hL]
  by_cases hk : k < optWidth L j
  · rw [setBits_bit hL _ _ _ _ (by omega), if_neg]
    rcases Nat.lt_or_gt_of_ne hne with h1 | h1
    · have := opt_disjoint L i j h1 hj
      omega
    · have := opt_disjoint L j i h1 hi
      omega
  · simp [hk]

theorem setBitsFor_bit (L : List Opt) (i v k : Nat) (hk : k < 32) :
    (setBitsFor L i v).getLsbD k = (decide (optStart L i ≤ k) && v.testBit (k - optStart L i)) := by
  unfold setBitsFor
  rw [BitVec.getLsbD_shiftLeft, BitVec.getLsbD_ofNat]
  by_cases h : optStart L i ≤ k
  · have h1 : k - optStart L i < 32 := by omega
    have h2 : ¬ k < optStart L i := by omega
    simp [hk, h, h1, h2]
  · have : k < optStart L i := by omega
    simp [h, this]

/-- The values given for one option, or-ed. -/
def orVals (j : Nat) : List (Nat × Nat) → Nat
  | [] => 0
  | (i, v) :: ps => (if i = j then v else 0) ||| orVals j ps

theorem getBits_zero {L : List Opt} (hL : optTotal L < 32) (j : Nat) : getBits L 0#32 j = 0 := by
  apply Nat.eq_of_testBit_eq
  intro k
  rw [getBits_bit hL]
  simp

theorem getBits_or {L : List Opt} (hL : optTotal L < 32) (a b : BitVec 32) (j : Nat) :
    getBits L (a ||| b) j = getBits L a j ||| getBits L b j := by
  apply Nat.eq_of_testBit_eq
  intro k
  simp only [getBits_bit hL, Nat.testBit_or, BitVec.getLsbD_or, Bool.and_or_distrib_left]

theorem getBits_setBitsFor {L : List Opt} (hL : optTotal L < 32) (i j v : Nat) (hi : i < L.length) (hj : j < L.length)
    (hv : v < 2 ^ optWidth L i) : getBits L (setBitsFor L i v) j = if i = j then v else 0 := by
  have h := opt_end_le L j
  apply Nat.eq_of_testBit_eq
  intro k
  rw [getBits_bit hL]
  by_cases hij : i = j
  · subst hij
    rw [if_pos rfl]
    by_cases hk : k < optWidth L i
    · rw [setBitsFor_bit _ _ _ _ (by omega)]
      simp [hk]
    · have : v.testBit k = false := Nat.testBit_lt_two_pow (Nat.lt_of_lt_of_le hv (Nat.pow_le_pow_right (by omega) (by omega)))
      simp [hk, this]
  · rw [if_neg hij, Nat.zero_testBit]
    by_cases hk : k < optWidth L j
    · rw [setBitsFor_bit _ _ _ _ (by omega)]
      rcases Nat.lt_or_gt_of_ne hij with h1 | h1
      · have h2 := opt_disjoint L i j h1 hj
        have : v.testBit (optStart L j + k - optStart L i) = false :=
          Nat.testBit_lt_two_pow (Nat.lt_of_lt_of_le hv (Nat.pow_le_pow_right (by omega) (by omega)))
        simp [this]
      · have h2 := opt_disjoint L j i h1 hi
        have : ¬ optStart L i ≤ optStart L j + k := by omega
        simp [this]
    · simp [hk]

theorem getBits_orBitsFor {L : List Opt} (hL : optTotal L < 32) (j : Nat) (hj : j < L.length) :
    (ps : List (Nat × Nat)) → (∀ p ∈ ps, p.1 < L.length ∧ p.2 < 2 ^ optWidth L p.1) →
    getBits L (orBitsFor L ps) j = orVals j ps
  | [], _ => getBits_zero hL j
  | (i, v) :: ps, h => by
    have h0 := h (i, v) (by simp)
    rw [orBitsFor, orVals, getBits_or hL, getBits_setBitsFor hL i j v h0.1 hj h0.2,
      getBits_orBitsFor hL j hj ps fun p hp => h p (by simp [hp])]

theorem optDefaults_mem : (L : List Opt) → (i : Nat) → ∀ p ∈ optDefaults i L, ∃ o, i ≤ p.1 ∧ L[p.1 - i]? = some o ∧ p.2 = o.dflt
  | [], _, p, h => by simp [optDefaults] at h
  | o :: os, i, p, h => by
    rcases List.mem_cons.1 h with rfl | h
    · exact ⟨o, Nat.le_refl _, by simp, rfl⟩
    · obtain ⟨o', h1, h2, h3⟩ := optDefaults_mem os (i + 1) p h
      refine ⟨o', by omega, ?_, h3⟩
      rw [show p.1 - i = (p.1 - (i + 1)) + 1 by omega]
      simpa using h2

theorem orVals_defaults_lt : (L : List Opt) → (i j : Nat) → j < i → orVals j (optDefaults i L) = 0
  | [], _, _, _ => rfl
  | o :: os, i, j, h => by
    rw [optDefaults, orVals, orVals_defaults_lt os (i + 1) j (by omega), if_neg (by omega)]
    rfl

theorem orVals_defaults : (L : List Opt) → (i j : Nat) → (o : Opt) → L[j]? = some o → orVals (i + j) (optDefaults i L) = o.dflt
  | [], _, _, _, h => by simp at h
  | o' :: os, i, 0, o, h => by
    simp only [List.getElem?_cons_zero, Option.some.injEq] at h
    subst h
    rw [optDefaults, orVals, orVals_defaults_lt os (i + 1) _ (by omega), if_pos (by omega)]
    simp
  | o' :: os, i, j + 1, o, h => by
    rw [optDefaults, orVals, if_neg (by omega), show i + (j + 1) = (i + 1) + j by omega,
      orVals_defaults os (i + 1) j o (by simpa using h)]
    simp

theorem getBits_defaultFlag {L : List Opt} (hL : optTotal L < 32) (hd : ∀ o ∈ L, o.dflt < 2 ^ o.width) {j : Nat} {o : Opt}
    (hj : L[j]? = some o) : getBits L (defaultFlag L) j = o.dflt := by
  have hjl : j < L.length := by
    rcases Nat.lt_or_ge j L.length with h | h
    · exact h
    · rw [List.getElem?_eq_none h] at hj; cases hj
  unfold defaultFlag
  rw [getBits_orBitsFor hL j hjl]
  · have := orVals_defaults L 0 j o hj
    simpa using this
  · intro p hp
    obtain ⟨o', -, h2, h3⟩ := optDefaults_mem L 0 p hp
    simp only [Nat.sub_zero] at h2
    refine ⟨?_, ?_⟩
    · rcases Nat.lt_or_ge p.1 L.length with h | h
      · exact h
      · rw [List.getElem?_eq_none h] at h2; cases h2
    · rw [h3]
      simp only [optWidth, h2, Option.map_some, Option.getD_some]
      exact hd o' (List.mem_of_getElem? h2)

end Verif
