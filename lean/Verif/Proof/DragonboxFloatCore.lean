import Verif.Model.DragonboxFloat
import Verif.Proof.DragonboxZeros

/-!
# Dragonbox for `float`: the precision of the table, divisibility, trailing zeros

As for `double`, with a Farey sequence of order `2^25` for each of the 254 exponents.
-/

namespace Verif

attribute [local irreducible] modInv5 modInvPow5 ctz

/-- Neighbours of `A/B` in the Farey sequence of order `2^25`: `p0/q0 ≤ A/B < p1/q1`. -/
def fareyLoopF (A B : Nat) : Nat → Nat → Nat → Nat → Nat → Nat × Nat × Nat × Nat
  | 0, p0, q0, p1, q1 => (p0, q0, p1, q1)
  | n + 1, p0, q0, p1, q1 =>
    if 2 ^ 25 < q0 + q1 then (p0, q0, p1, q1)
    else
      let rl := A * q0 - p0 * B
      let ru := p1 * B - A * q1
      let t := min (rl / ru) ((2 ^ 25 - q0) / q1)
      let p0 := p0 + t * p1
      let q0 := q0 + t * q1
      let rl := rl - t * ru
      let t := if rl = 0 then (2 ^ 25 - q1) / q0 else min ((ru - 1) / rl) ((2 ^ 25 - q1) / q0)
      fareyLoopF A B n p0 q0 (p1 + t * p0) (q1 + t * q0)

/-- Both fractions lie between neighbours of the Farey sequence. -/
def fareyOkF (A B A' B' : Nat) : Bool :=
  match fareyLoopF A B 64 (A / B) 1 1 0 with
  | (p0, q0, p1, q1) => decide (2 ^ 25 < q0 + q1 ∧ p1 * q0 = p0 * q1 + 1 ∧ p0 * B ≤ q0 * A ∧ p0 * B' ≤ q0 * A' ∧ A * q1 < p1 * B ∧ A' * q1 < p1 * B')

/-- What is needed of the exponent `e`. -/
def expOkF (e : Int) : Bool :=
  let mk := floorLog10Pow2 e - 1
  let k := -mk
  let c := dfGet k
  let bi := e + floorLog2Pow10 k
  let b := bi.toNat
  let A := facNum e k
  let B := facDen e k
  decide (1 ≤ bi ∧ bi ≤ 6 ∧ c < 2 ^ 64 ∧ dfDelta c b = 2 * A / B ∧ 10 * B ≤ 2 * A ∧ 2 * A < 100 * B) &&
    fareyOkF A B (2 ^ b * c) (2 ^ 64)

theorem expOkF_0 : ∀ i : Nat, i < 254 → expOkF ((i : Int) - 149) = true := by decide +kernel

theorem expOkF_all {e : Int} (h1 : -149 ≤ e) (h2 : e ≤ 104) : expOkF e = true := by
  have := expOkF_0 (e + 149).toNat (by omega)
  rwa [show (((e + 149).toNat : Int)) - 149 = e by omega] at this

/-- What the table gives for the exponent `e`. -/
structure ExpFactsF (e mk : Int) (c b A B : Nat) : Prop where
  b1 : 1 ≤ b
  b6 : b ≤ 6
  c1 : c < 2 ^ 64
  pos : 0 < B
  delta : dfDelta c b = 2 * A / B
  lo : 10 * B ≤ 2 * A
  hi : 2 * A < 100 * B
  floor : ∀ n, n ≤ 2 ^ 25 → n * A / B = n * 2 ^ b * c / 2 ^ 64

theorem expFactsF {e : Int} (h1 : -149 ≤ e) (h2 : e ≤ 104) :
    ExpFactsF e (floorLog10Pow2 e - 1) (dfGet (-(floorLog10Pow2 e - 1))) (e + floorLog2Pow10 (-(floorLog10Pow2 e - 1))).toNat
      (facNum e (-(floorLog10Pow2 e - 1))) (facDen e (-(floorLog10Pow2 e - 1))) := by
  have h := expOkF_all h1 h2
  unfold expOkF at h
  simp only [Bool.and_eq_true, decide_eq_true_eq] at h
  obtain ⟨⟨a1, a2, a3, a5, a6, a7⟩, a8⟩ := h
  refine ⟨by omega, by omega, a3, facDen_pos _ _, a5, a6, a7, fun n hn => ?_⟩
  unfold fareyOkF at a8
  generalize fareyLoopF _ _ _ _ _ _ _ = x at a8
  obtain ⟨p0, q0, p1, q1⟩ := x
  simp only [decide_eq_true_eq] at a8
  obtain ⟨g1, g2, g3, g4, g5, g6⟩ := a8
  rw [mul_assoc n]
  exact Nat.le_antisymm (farey_le (by omega) g2 g4 g5 (facDen_pos _ _) (by decide)) (farey_le (by omega) g2 g3 g6 (by decide) (facDen_pos _ _))

/-! ## The arithmetic on words -/

theorem umul96Upper_eq {x c : Nat} (hx : x < 2 ^ 32) (h1 : c < 2 ^ 64) : umul96Upper x c = x * c / 2 ^ 64 := by
  unfold umul96Upper umul128Upper
  refine Nat.mod_eq_of_lt (Nat.div_lt_of_lt_mul ?_)
  rw [mul_comm (2 ^ 64)]
  exact Nat.mul_lt_mul'' hx h1

theorem dfParity_eq {e mk : Int} {c b A B : Nat} (h : ExpFactsF e mk c b A B) {f : Nat} (hf : f ≤ 2 ^ 25) :
    dfParity f c b = (f * A / B % 2 == 1) := by
  unfold dfParity
  congr 1
  rw [h.floor f hf]
  unfold umul96Lower
  have hb1 := h.b1
  have hb6 := h.b6
  have e1 : f * 2 ^ b * c / 2 ^ 64 = f * c / 2 ^ (64 - b) := by
    rw [show f * 2 ^ b * c = f * c * 2 ^ b by ring,
      show (2 : Nat) ^ 64 = 2 ^ (64 - b) * 2 ^ b by rw [← pow_add, show 64 - b + b = 64 by omega], Nat.mul_div_mul_right _ _ (Nat.pow_pos (by decide))]
  rw [e1]
  generalize f * c = w
  have e2 : w % 2 ^ 64 / 2 ^ (64 - b) = w / 2 ^ (64 - b) % 2 ^ b := by
    rw [show (2 : Nat) ^ 64 = 2 ^ (64 - b) * 2 ^ b by rw [← pow_add, show 64 - b + b = 64 by omega], Nat.mod_mul_right_div_self]
  rw [e2]
  exact Nat.mod_mod_of_dvd _ ⟨2 ^ (b - 1), by rw [← pow_succ', show b - 1 + 1 = b by omega]⟩

theorem smallDiv10_eq {n : Nat} (h : n ≤ 105) : smallDiv10 n = n / 10 := by
  have : ∀ n, n < 106 → smallDiv10 n = n / 10 := by decide +kernel
  exact this n (by omega)

theorem checkDiv5_eq {n : Nat} (h : n ≤ 53) : checkDiv5 n = (decide (n % 5 = 0), n / 5) := by
  have : ∀ n, n < 54 → checkDiv5 n = (decide (n % 5 = 0), n / 5) := by decide +kernel
  exact this n (by omega)

/-! ## Divisibility -/

theorem modInvPow5_ok32 : ∀ i, i < 11 → 5 ^ i * modInvPow5 32 i % 2 ^ 32 = 1 % 2 ^ 32 := by decide +kernel

theorem dfDivisibleBy5_iff {n i : Nat} (hi : i < 11) (hn : n < 2 ^ 32) : dfDivisibleBy5 n i = true ↔ 5 ^ i ∣ n := by
  unfold dfDivisibleBy5 maxQuot5
  rw [decide_eq_true_eq]
  exact modInv_iff (Nat.pow_pos (by decide)) (modInvPow5_ok32 i hi) hn

theorem dfIsFc_sound {f : Nat} {e : Int} (h1 : -149 ≤ e) (hf : f < 2 ^ 32) (hev : 2 ∣ f) (h : dfIsFc f e (floorLog10Pow2 e - 1) = true) :
    facDen e (-(floorLog10Pow2 e - 1)) ∣ f * facNum e (-(floorLog10Pow2 e - 1)) := by
  have hl := floorLog10Pow2_eq e
  unfold dfIsFc at h
  split at h
  · cases h
  · split at h
    · rw [fac_dvd_neg (by omega) (by omega)]
      exact (dfDivisibleBy5_iff (by omega) hf).1 h
    · split at h
      · have : ∀ i : Nat, i < 9 → facDen ((i : Int) - 2) (-(floorLog10Pow2 ((i : Int) - 2) - 1)) ∣ 2 * facNum ((i : Int) - 2) (-(floorLog10Pow2 ((i : Int) - 2) - 1)) := by
          decide +kernel
        have := this (e + 2).toNat (by omega)
        rw [show (((e + 2).toNat : Int)) - 2 = e by omega] at this
        obtain ⟨g, rfl⟩ := hev
        rw [mul_right_comm]
        exact Dvd.dvd.mul_right this g
      · rw [decide_eq_true_eq] at h
        generalize hmk : floorLog10Pow2 e - 1 = mk at *
        have hd : 2 ^ (mk - e + 1).toNat ∣ f := (Nat.pow_dvd_pow 2 h).trans ctz_dvd
        unfold facDen facNum
        rw [show (e - 1).toNat = 0 by omega, show (- -mk).toNat = 0 by omega]
        simp only [pow_zero, one_mul, mul_one]
        rw [ten_pow_split (-mk).toNat,
          show (1 - e).toNat = (mk - e + 1).toNat + (-mk).toNat by omega, pow_add, ← mul_assoc]
        exact Dvd.dvd.mul_right (Nat.mul_dvd_mul hd (dvd_refl _)) _

theorem dfIsHalf_iff {f : Nat} {e : Int} (h1 : -149 ≤ e) (hf : f ≤ 2 ^ 25) (h0 : f % 2 = 1) :
    dfIsHalf f e (floorLog10Pow2 e - 1) = true ↔ facDen e (-(floorLog10Pow2 e - 1)) ∣ f * facNum e (-(floorLog10Pow2 e - 1)) := by
  have hl := floorLog10Pow2_eq e
  unfold dfIsHalf
  split
  · simp only [Bool.false_eq_true, false_iff]
    generalize hmk : floorLog10Pow2 e - 1 = mk at *
    unfold facDen facNum
    rw [show (e - 1).toNat = 0 by omega, show (- -mk).toNat = 0 by omega]
    simp only [pow_zero, one_mul, mul_one]
    rw [ten_pow_split (-mk).toNat,
      show (1 - e).toNat = (-mk).toNat + ((mk - e).toNat + 1) by omega, pow_add, mul_left_comm]
    intro h
    have h := Nat.dvd_of_mul_dvd_mul_left (Nat.pow_pos (by decide)) h
    have h2 : 2 ∣ f * 5 ^ (-mk).toNat := (Dvd.intro_left (2 ^ (mk - e).toNat) (by rw [pow_succ])).trans h
    rcases (Nat.prime_two.dvd_mul).1 h2 with h | h
    · omega
    · have := Nat.prime_two.dvd_of_dvd_pow h
      omega
  · split
    · have : ∀ i : Nat, i < 8 → facDen ((i : Int) - 1) (-(floorLog10Pow2 ((i : Int) - 1) - 1)) ∣ facNum ((i : Int) - 1) (-(floorLog10Pow2 ((i : Int) - 1) - 1)) := by
        decide +kernel
      have := this (e + 1).toNat (by omega)
      rw [show (((e + 1).toNat : Int)) - 1 = e by omega] at this
      simp only [true_iff]
      exact Dvd.dvd.mul_left this f
    · split
      · simp only [Bool.false_eq_true, false_iff]
        rw [fac_dvd_neg (by omega) (by omega)]
        intro h
        have h2 := Nat.le_of_dvd (by omega) h
        have h3 : 5 ^ 11 ≤ 5 ^ (floorLog10Pow2 e - 1).toNat := Nat.pow_le_pow_right (by decide) (by omega)
        have h4 : (2 : Nat) ^ 25 < 5 ^ 11 := by decide
        omega
      · rw [fac_dvd_neg (by omega) (by omega)]
        exact dfDivisibleBy5_iff (by omega) (by omega)

/-! ## The trailing zeros -/

/-- `i` is the inverse of `a` modulo `2^32`. -/
def IsInv32 (a i : Nat) : Prop := a * i % 2 ^ 32 = 1 % 2 ^ 32

/-- One step of dividing by a power of 5. -/
theorem stepPow {a inv q : Nat} (ha : 0 < a) (hi : IsInv32 a inv) (h : q < 2 ^ 32) :
    ((2 ^ 32 - 1) / a < q * inv % 2 ^ 32 ∧ ¬ a ∣ q) ∨
      (¬ (2 ^ 32 - 1) / a < q * inv % 2 ^ 32 ∧ a ∣ q ∧ q * inv % 2 ^ 32 = q / a) := by
  have h1 := modInv_iff (w := 32) (a := a) (n := q) ha hi h
  by_cases hd : a ∣ q
  · exact .inr ⟨not_lt.2 (h1.2 hd), hd, modInv_dvd ha hi h hd⟩
  · exact .inl ⟨lt_of_not_ge fun hc => hd (h1.1 hc), hd⟩

theorem rtzPairs_spec {inv2 t : Nat} (hi : IsInv32 (5 ^ 2) inv2) : ∀ {fuel s n : Nat}, n < 2 ^ 32 → t < s + 2 * fuel → s ≤ t →
    ∃ j, (rtzPairs inv2 t fuel s n).2 = s + j ∧ s + j ≤ t ∧ n = (rtzPairs inv2 t fuel s n).1 * 5 ^ j ∧
      (¬ 5 ^ 2 ∣ (rtzPairs inv2 t fuel s n).1 ∨ t ≤ s + j + 1)
  | 0, s, n, _, h, h' => by omega
  | fuel + 1, s, n, h, hf, hs => by
    unfold rtzPairs maxQuot5
    by_cases ht : s + 1 < t
    · rw [if_pos ht]
      rcases stepPow (by decide) hi h with ⟨h1, h2⟩ | ⟨h1, h2, h3⟩
      · rw [if_pos h1]
        exact ⟨0, rfl, by omega, by simp, .inl h2⟩
      · rw [if_neg h1, h3]
        obtain ⟨j, g1, g2, g3, g4⟩ := rtzPairs_spec hi (t := t) (fuel := fuel) (s := s + 2) (n := n / 5 ^ 2)
          (lt_of_le_of_lt (Nat.div_le_self _ _) h) (by clear h1 h2 h3; omega) (by clear h1 h2 h3; omega)
        refine ⟨j + 2, by clear h1 h2 h3; omega, by clear h1 h2 h3; omega, ?_, g4.imp id fun h => by clear h1 h2 h3; omega⟩
        rw [pow_add, ← mul_assoc, ← g3, Nat.div_mul_cancel h2]
    · rw [if_neg ht]
      exact ⟨0, rfl, by omega, by simp, .inr (by omega)⟩

/-- The zeros are all removed. -/
theorem dfRemoveZeros_spec {n : Nat} (h0 : 0 < n) (hn : n < 10 ^ 8) :
    (dfRemoveZeros n).1 * 10 ^ (dfRemoveZeros n).2 = n ∧ ¬ 10 ∣ (dfRemoveZeros n).1 ∧ (dfRemoveZeros n).2 ≤ 7 := by
  have hz : ∀ {x z : Nat}, x * 10 ^ z = n → z ≤ 7 := by
    intro x z h
    by_contra hc
    have h1 : 10 ^ 8 ∣ n := (Nat.pow_dvd_pow 10 (by omega : 8 ≤ z)).trans (Dvd.intro_left x h)
    have := Nat.le_of_dvd h0 h1
    omega
  have suff : (dfRemoveZeros n).1 * 10 ^ (dfRemoveZeros n).2 = n ∧ ¬ 10 ∣ (dfRemoveZeros n).1 → (dfRemoveZeros n).1 * 10 ^ (dfRemoveZeros n).2 = n ∧ ¬ 10 ∣ (dfRemoveZeros n).1 ∧ (dfRemoveZeros n).2 ≤ 7 :=
    fun h => ⟨h.1, h.2, hz h.1⟩
  apply suff
  clear suff
  have ht : 2 ^ min (ctz 32 n) 7 ∣ n := (Nat.pow_dvd_pow 2 (min_le_left _ _)).trans ctz_dvd
  have key : ∀ {z : Nat}, z ≤ 6 → z = min (ctz 32 n) 7 → ¬ 2 ^ (z + 1) ∣ n := by
    intro z h1 h2 hd
    have := ctz_ge (m := z + 1) (n := 32) (by omega) hd
    omega
  unfold dfRemoveZeros
  have i1 : IsInv32 (5 ^ 1) _ := modInvPow5_ok32 1 (by decide)
  have i2 : IsInv32 (5 ^ 2) _ := modInvPow5_ok32 2 (by decide)
  generalize modInvPow5 32 1 = inv1 at *
  generalize modInvPow5 32 2 = inv2 at *
  generalize hT : min (ctz 32 n) 7 = t at *
  have ht7 : t ≤ 7 := by omega
  obtain ⟨j, g1, g2, g3, g4⟩ := rtzPairs_spec i2 (t := t) (fuel := 4) (s := 0) (n := n) (by omega) (by omega) (by omega)
  generalize rtzPairs inv2 t 4 0 n = w at *
  obtain ⟨q, s⟩ := w
  dsimp only at *
  have hqn : q ≤ n := by
    rw [g3]
    exact Nat.le_mul_of_pos_right _ (Nat.pow_pos (by decide))
  have fin : ∀ {q j : Nat}, n = q * 5 ^ j → j ≤ t → (¬ 5 ∣ q ∨ j = t) → q / 2 ^ j * 10 ^ j = n ∧ ¬ 10 ∣ q / 2 ^ j := by
    intro q j g3 g2 g4
    have h2q : 2 ^ j ∣ q := by
      have : 2 ^ j ∣ q * 5 ^ j := g3 ▸ (Nat.pow_dvd_pow 2 g2).trans ht
      exact (Nat.Coprime.pow _ _ (by decide) : Nat.Coprime (2 ^ j) (5 ^ j)).dvd_of_dvd_mul_right this
    obtain ⟨y, rfl⟩ := h2q
    rw [Nat.mul_div_cancel_left _ (Nat.pow_pos (by decide))]
    have hy : y * 10 ^ j = n := by
      rw [g3, ten_pow_split j]
      ring
    refine ⟨hy, fun hc => ?_⟩
    obtain ⟨x, rfl⟩ := hc
    have hj : j = t := g4.resolve_left fun h => h ⟨2 ^ j * (2 * x), by ring⟩
    have h16 := hz (x := x) (z := j + 1) (by rw [← hy, pow_succ]; ring)
    refine key (z := t) (by omega) rfl ⟨5 ^ (t + 1) * x, ?_⟩
    rw [← hy, ← mul_assoc, ← ten_pow_split, pow_succ, hj]
    ring
  unfold rtzOdd maxQuot5
  dsimp only
  rw [show s = j by omega]
  by_cases hlt : j < t
  · rcases stepPow (a := 5 ^ 1) (q := q) (by decide) i1 (by omega) with ⟨h1, h2⟩ | ⟨h1, h2, h3⟩
    · rw [if_neg (fun h => absurd h.2 (not_le.2 h1))]
      exact fin g3 (by omega) (.inl (by simpa using h2))
    · rw [if_pos ⟨hlt, not_lt.1 h1⟩, h3]
      refine fin (q := q / 5 ^ 1) (j := j + 1) ?_ (by omega) ?_
      · rw [pow_succ' 5 j, ← mul_assoc, show q / 5 ^ 1 * 5 = q / 5 ^ 1 * 5 ^ 1 by rw [pow_one], Nat.div_mul_cancel h2]
        exact g3
      · rcases g4 with g4 | g4
        · left
          rintro ⟨y, hy⟩
          exact g4 ⟨y, by omega⟩
        · right
          omega
  · rw [if_neg (fun h => hlt h.1)]
    exact fin g3 (by omega) (.inr (by omega))

end Verif
