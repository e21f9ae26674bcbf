import Verif.Proof.DragonboxTable
import Mathlib.Tactic.Ring
import Mathlib.Data.Nat.Prime.Basic
import Mathlib.Tactic.Linarith
import Mathlib.Tactic.NormNum

/-!
# Dragonbox: the decimal lies in the rounding interval
-/

namespace Verif

/-! ## The precision of the table -/

theorem farey_le {p0 q0 p1 q1 A B A' B' n : Nat} (h1 : n < q0 + q1) (h2 : p1 * q0 = p0 * q1 + 1) (h3 : p0 * B' ≤ q0 * A')
    (h4 : A * q1 < p1 * B) (hB : 0 < B) (hB' : 0 < B') : n * A / B ≤ n * A' / B' := by
  rw [Nat.le_div_iff_mul_le hB']
  by_contra hc
  have hc : n * A' < n * A / B * B' := Nat.lt_of_not_le hc
  have hm : n * A / B * B ≤ n * A := Nat.div_mul_le_self _ _
  generalize n * A / B = m at hc hm
  have hq0 : 0 < q0 := Nat.pos_of_ne_zero (by rintro rfl; simp at h2)
  have hn : 0 < n := by
    rcases Nat.eq_zero_or_pos n with rfl | h
    · simp at hm
      rcases hm with rfl | rfl
      · simp at hc
      · omega
    · exact h
  have g1 : n * p0 < m * q0 := by
    have a1 : n * p0 * B' ≤ n * A' * q0 := by
      calc n * p0 * B' = n * (p0 * B') := by ring
        _ ≤ n * (q0 * A') := Nat.mul_le_mul_left _ h3
        _ = n * A' * q0 := by ring
    have a2 : n * A' * q0 < m * B' * q0 := Nat.mul_lt_mul_of_pos_right hc hq0
    have a3 : n * p0 * B' < m * q0 * B' := by
      calc n * p0 * B' < m * B' * q0 := lt_of_le_of_lt a1 a2
        _ = m * q0 * B' := by ring
    exact Nat.lt_of_mul_lt_mul_right a3
  have g2 : m * q1 < n * p1 := by
    have a1 : m * q1 * B ≤ n * A * q1 := by
      calc m * q1 * B = m * B * q1 := by ring
        _ ≤ n * A * q1 := Nat.mul_le_mul_right _ hm
    have a2 : n * (A * q1) < n * (p1 * B) := Nat.mul_lt_mul_of_pos_left h4 hn
    have a3 : m * q1 * B < n * p1 * B := by
      calc m * q1 * B ≤ n * (A * q1) := by rw [← mul_assoc]; exact a1
        _ < n * (p1 * B) := a2
        _ = n * p1 * B := by ring
    exact Nat.lt_of_mul_lt_mul_right a3
  have g3 : q0 * (m * q1 + 1) ≤ q0 * (n * p1) := Nat.mul_le_mul_left _ g2
  have g4 : q1 * (n * p0 + 1) ≤ q1 * (m * q0) := Nat.mul_le_mul_left _ g1
  have g5 : q0 * (n * p1) = q1 * (n * p0) + n := by
    calc q0 * (n * p1) = n * (p1 * q0) := by ring
      _ = n * (p0 * q1 + 1) := by rw [h2]
      _ = q1 * (n * p0) + n := by ring
  have g6 : q0 * (m * q1) = q1 * (m * q0) := by ring
  rw [Nat.mul_add, g5, g6] at g3
  rw [Nat.mul_add] at g4
  omega

/-- What the table gives for the exponent `e`. -/
structure ExpFacts (e mk : Int) (c : Nat × Nat) (b A B : Nat) : Prop where
  b1 : 1 ≤ b
  b9 : b ≤ 9
  c1 : c.1 < 2 ^ 64
  c2 : c.2 < 2 ^ 64
  pos : 0 < B
  delta : dbDelta c b = 2 * A / B
  lo : 100 * B ≤ 2 * A
  hi : 2 * A < 1000 * B
  floor : ∀ n, n ≤ 2 ^ 54 → n * A / B = n * 2 ^ b * (c.1 * 2 ^ 64 + c.2) / 2 ^ 128

theorem facDen_pos (e k : Int) : 0 < facDen e k := Nat.mul_pos (Nat.pow_pos (by decide)) (Nat.pow_pos (by decide))

theorem expFacts {e : Int} (h1 : -1074 ≤ e) (h2 : e ≤ 971) :
    ExpFacts e (floorLog10Pow2 e - 2) (dbGet (-(floorLog10Pow2 e - 2))) (e + floorLog2Pow10 (-(floorLog10Pow2 e - 2))).toNat
      (facNum e (-(floorLog10Pow2 e - 2))) (facDen e (-(floorLog10Pow2 e - 2))) := by
  have h := expOk_all h1 h2
  unfold expOk at h
  simp only [Bool.and_eq_true, decide_eq_true_eq] at h
  obtain ⟨⟨a1, a2, a3, a4, a5, a6, a7⟩, a8⟩ := h
  refine ⟨by omega, by omega, a3, a4, facDen_pos _ _, a5, a6, a7, fun n hn => ?_⟩
  unfold fareyOk at a8
  generalize fareyLoop _ _ _ _ _ _ _ = x at a8
  obtain ⟨p0, q0, p1, q1⟩ := x
  simp only [decide_eq_true_eq] at a8
  obtain ⟨g1, g2, g3, g4, g5, g6⟩ := a8
  rw [mul_assoc n]
  exact Nat.le_antisymm (farey_le (by omega) g2 g4 g5 (facDen_pos _ _) (by decide)) (farey_le (by omega) g2 g3 g6 (by decide) (facDen_pos _ _))

/-! ## The arithmetic on words -/

theorem umul192_floor {x : Nat} {c : Nat × Nat} : (x * c.1 + umul128Upper x c.2) = x * (c.1 * 2 ^ 64 + c.2) / 2 ^ 64 := by
  unfold umul128Upper
  rw [show x * (c.1 * 2 ^ 64 + c.2) = x * c.2 + (x * c.1) * 2 ^ 64 by ring, Nat.add_mul_div_right _ _ (by decide)]
  omega

theorem umul192Upper_eq {x : Nat} {c : Nat × Nat} (hx : x < 2 ^ 64) (h1 : c.1 < 2 ^ 64) (h2 : c.2 < 2 ^ 64) :
    umul192Upper x c = x * (c.1 * 2 ^ 64 + c.2) / 2 ^ 128 := by
  unfold umul192Upper
  rw [umul192_floor, Nat.div_div_eq_div_mul, show (2 : Nat) ^ 64 * 2 ^ 64 = 2 ^ 128 by norm_num]
  refine Nat.mod_eq_of_lt (Nat.div_lt_of_lt_mul ?_)
  calc x * (c.1 * 2 ^ 64 + c.2) < 2 ^ 64 * 2 ^ 128 := Nat.mul_lt_mul'' hx (by omega)
    _ = 2 ^ 128 * 2 ^ 64 := by ring

theorem mulParity_eq {e mk : Int} {c : Nat × Nat} {b A B : Nat} (h : ExpFacts e mk c b A B) {f : Nat} (hf : f ≤ 2 ^ 54) :
    mulParity f c b = (f * A / B % 2 == 1) := by
  unfold mulParity
  congr 1
  rw [h.floor f hf]
  have hm : umul192Middle f c = (f * (c.1 * 2 ^ 64 + c.2) / 2 ^ 64) % 2 ^ 64 := by
    unfold umul192Middle
    rw [← umul192_floor]
    omega
  rw [hm]
  generalize hC : c.1 * 2 ^ 64 + c.2 = C
  have hb1 := h.b1
  have hb9 := h.b9
  have e1 : f * 2 ^ b * C / 2 ^ 128 = f * C / 2 ^ 64 / 2 ^ (64 - b) := by
    rw [Nat.div_div_eq_div_mul, show f * 2 ^ b * C = f * C * 2 ^ b by ring,
      show (2 : Nat) ^ 128 = 2 ^ 64 * 2 ^ (64 - b) * 2 ^ b by
        rw [mul_assoc, ← pow_add, show 64 - b + b = 64 by omega, ← pow_add], Nat.mul_div_mul_right _ _ (Nat.pow_pos (by decide))]
  rw [e1]
  generalize f * C / 2 ^ 64 = w
  have e2 : w % 2 ^ 64 / 2 ^ (64 - b) = w / 2 ^ (64 - b) % 2 ^ b := by
    rw [show (2 : Nat) ^ 64 = 2 ^ (64 - b) * 2 ^ b by rw [← pow_add, show 64 - b + b = 64 by omega], Nat.mod_mul_right_div_self]
  rw [e2]
  exact Nat.mod_mod_of_dvd _ ⟨2 ^ (b - 1), by rw [← pow_succ', show b - 1 + 1 = b by omega]⟩

theorem div1000_eq {n : Nat} (h : n < 9100000000000000000) : div1000 n = n / 1000 := by
  unfold div1000 umul128Upper
  omega

theorem smallDiv100_eq {n : Nat} (h : n ≤ 1000) : smallDiv100 n = n / 100 := by
  have : ∀ n, n < 1001 → smallDiv100 n = n / 100 := by decide +kernel
  exact this n (by omega)

theorem checkDiv25_eq {n : Nat} (h : n ≤ 250) : checkDiv25 n = (decide (n % 25 = 0), n / 25) := by
  have : ∀ n, n < 251 → checkDiv25 n = (decide (n % 25 = 0), n / 25) := by decide +kernel
  exact this n (by omega)

/-! ## Divisibility -/

theorem modInv_dvd {w a i n : Nat} (ha : 0 < a) (hi : a * i % 2 ^ w = 1 % 2 ^ w) (hn : n < 2 ^ w) (h : a ∣ n) : n * i % 2 ^ w = n / a := by
  obtain ⟨q, rfl⟩ := h
  rw [Nat.mul_div_cancel_left _ ha]
  have hq : q < 2 ^ w := lt_of_le_of_lt (Nat.le_mul_of_pos_left q ha) hn
  calc a * q * i % 2 ^ w = (q * (a * i)) % 2 ^ w := by ring_nf
    _ = (q * 1) % 2 ^ w := by rw [Nat.mul_mod, hi, ← Nat.mul_mod]
    _ = q := by rw [mul_one, Nat.mod_eq_of_lt hq]

theorem modInv_iff {w a i n : Nat} (ha : 0 < a) (hi : a * i % 2 ^ w = 1 % 2 ^ w) (hn : n < 2 ^ w) :
    n * i % 2 ^ w ≤ (2 ^ w - 1) / a ↔ a ∣ n := by
  have hp : 0 < 2 ^ w := Nat.pow_pos (by decide)
  constructor
  · intro h
    have h1 : a * (n * i % 2 ^ w) ≤ 2 ^ w - 1 := by
      have := Nat.mul_le_mul_left a h
      exact this.trans (Nat.mul_div_le _ _)
    have h2 : a * (n * i % 2 ^ w) % 2 ^ w = n := by
      calc a * (n * i % 2 ^ w) % 2 ^ w = (a * (n * i)) % 2 ^ w := by rw [Nat.mul_mod, Nat.mod_mod, ← Nat.mul_mod]
        _ = (n * (a * i)) % 2 ^ w := by ring_nf
        _ = (n * 1) % 2 ^ w := by rw [Nat.mul_mod, hi, ← Nat.mul_mod]
        _ = n := by rw [mul_one, Nat.mod_eq_of_lt hn]
    rw [Nat.mod_eq_of_lt (by omega)] at h2
    exact ⟨_, h2.symm⟩
  · intro h
    rw [modInv_dvd ha hi hn h]
    exact Nat.div_le_div_right (by omega)

theorem modInvPow5_ok : ∀ i, i < 24 → 5 ^ i * modInvPow5 64 i % 2 ^ 64 = 1 % 2 ^ 64 := by decide +kernel

theorem divisibleBy5_iff {n i : Nat} (hi : i < 24) (hn : n < 2 ^ 64) : divisibleBy5 n i = true ↔ 5 ^ i ∣ n := by
  unfold divisibleBy5 maxQuot5
  rw [decide_eq_true_eq]
  exact modInv_iff (Nat.pow_pos (by decide)) (modInvPow5_ok i hi) hn

theorem ctz_dvd : ∀ {n x : Nat}, 2 ^ ctz n x ∣ x
  | 0, x => by simp [ctz]
  | n + 1, x => by
    unfold ctz
    split
    · have := @ctz_dvd n (x / 2)
      rw [pow_succ]
      obtain ⟨y, hy⟩ := this
      exact ⟨y, by rw [mul_right_comm, ← hy]; omega⟩
    · simp

theorem ctz_max : ∀ {n x : Nat}, ctz n x < n → ¬ 2 ^ (ctz n x + 1) ∣ x
  | 0, x, h => by omega
  | n + 1, x, h => by
    unfold ctz at h ⊢
    split
    · rename_i h0
      rw [if_pos h0] at h
      have := @ctz_max n (x / 2) (by omega)
      intro hd
      apply this
      rw [pow_succ] at hd
      obtain ⟨y, hy⟩ := hd
      generalize 2 ^ (ctz n (x / 2) + 1) = P at hy ⊢
      exact ⟨y, by rw [show P * 2 * y = P * y * 2 by ring] at hy; omega⟩
    · rename_i h0
      simp
      omega

theorem ten_pow_split (n : Nat) : (10 : Nat) ^ n = 2 ^ n * 5 ^ n := (mul_pow 2 5 n : (2 * 5) ^ n = _)

/-- `k` and `e` are linked. -/
theorem floorLog10Pow2_eq (e : Int) : floorLog10Pow2 e = e * 1262611 / 4194304 := by
  unfold floorLog10Pow2 dbLog
  rw [show ((dbShift 0 0x4d104d427de7fbcc 22 : Nat) : Int) = 1262611 by decide +kernel]
  norm_num

theorem fac_dvd_neg {f : Nat} {e mk : Int} (hmk : 0 ≤ mk) (he : mk ≤ e - 1) : facDen e (-mk) ∣ f * facNum e (-mk) ↔ 5 ^ mk.toNat ∣ f := by
  unfold facDen facNum
  rw [show (1 - e).toNat = 0 by omega, show (-mk).toNat = 0 by omega, show - -mk = mk by omega]
  simp only [pow_zero, one_mul, mul_one]
  have hsp : (10 : Nat) ^ mk.toNat = 2 ^ mk.toNat * 5 ^ mk.toNat := ten_pow_split _
  have hco : Nat.Coprime (5 ^ mk.toNat) (2 ^ (e - 1).toNat) := Nat.Coprime.pow _ _ (by decide)
  constructor
  · intro h
    exact hco.dvd_of_dvd_mul_right ((Dvd.intro_left _ hsp.symm : 5 ^ mk.toNat ∣ 10 ^ mk.toNat).trans h)
  · intro h
    rw [hsp, mul_comm]
    exact Nat.mul_dvd_mul h (Nat.pow_dvd_pow 2 (by omega))

theorem isIntFc_sound {f : Nat} {e : Int} (h1 : -1074 ≤ e) (hf : f < 2 ^ 64) (hev : 2 ∣ f) (h : isIntFc f e (floorLog10Pow2 e - 2) = true) :
    facDen e (-(floorLog10Pow2 e - 2)) ∣ f * facNum e (-(floorLog10Pow2 e - 2)) := by
  have hl := floorLog10Pow2_eq e
  unfold isIntFc at h
  split at h
  · cases h
  · split at h
    · rw [fac_dvd_neg (by omega) (by omega)]
      exact (divisibleBy5_iff (by omega) hf).1 h
    · split at h
      · have : ∀ i : Nat, i < 14 → facDen ((i : Int) - 4) (-(floorLog10Pow2 ((i : Int) - 4) - 2)) ∣ 2 * facNum ((i : Int) - 4) (-(floorLog10Pow2 ((i : Int) - 4) - 2)) := by
          decide +kernel
        have := this (e + 4).toNat (by omega)
        rw [show (((e + 4).toNat : Int)) - 4 = e by omega] at this
        obtain ⟨g, rfl⟩ := hev
        rw [mul_right_comm]
        exact Dvd.dvd.mul_right this g
      · rw [decide_eq_true_eq] at h
        generalize hmk : floorLog10Pow2 e - 2 = mk at *
        have hd : 2 ^ (mk - e + 1).toNat ∣ f := (Nat.pow_dvd_pow 2 h).trans ctz_dvd
        unfold facDen facNum
        rw [show (e - 1).toNat = 0 by omega, show (- -mk).toNat = 0 by omega]
        simp only [pow_zero, one_mul, mul_one]
        rw [ten_pow_split (-mk).toNat,
          show (1 - e).toNat = (mk - e + 1).toNat + (-mk).toNat by omega, pow_add, ← mul_assoc]
        exact Dvd.dvd.mul_right (Nat.mul_dvd_mul hd (dvd_refl _)) _

theorem isIntHalf_iff {f : Nat} {e : Int} (h1 : -1074 ≤ e) (hf : f ≤ 2 ^ 54) (h0 : f % 2 = 1) :
    isIntHalf f e (floorLog10Pow2 e - 2) = true ↔ facDen e (-(floorLog10Pow2 e - 2)) ∣ f * facNum e (-(floorLog10Pow2 e - 2)) := by
  have hl := floorLog10Pow2_eq e
  unfold isIntHalf
  split
  · simp only [Bool.false_eq_true, false_iff]
    generalize hmk : floorLog10Pow2 e - 2 = mk at *
    unfold facDen facNum
    rw [show (e - 1).toNat = 0 by omega, show (- -mk).toNat = 0 by omega]
    simp only [pow_zero, one_mul, mul_one]
    rw [ten_pow_split (-mk).toNat,
      show (1 - e).toNat = (-mk).toNat + ((mk - e).toNat + 1) by omega, pow_add, mul_left_comm]
    intro h
    have h := Nat.dvd_of_mul_dvd_mul_left (Nat.pow_pos (by decide)) h
    have h2 : 2 ∣ f * 5 ^ (-mk).toNat := (Dvd.intro_left (2 ^ (mk - e).toNat) (by rw [pow_succ])).trans h
    rcases (Nat.prime_two.dvd_mul).1 h2 with h | h
    · omega
    · have := Nat.prime_two.dvd_of_dvd_pow h
      omega
  · split
    · have : ∀ i : Nat, i < 12 → facDen ((i : Int) - 2) (-(floorLog10Pow2 ((i : Int) - 2) - 2)) ∣ facNum ((i : Int) - 2) (-(floorLog10Pow2 ((i : Int) - 2) - 2)) := by
        decide +kernel
      have := this (e + 2).toNat (by omega)
      rw [show (((e + 2).toNat : Int)) - 2 = e by omega] at this
      simp only [true_iff]
      exact Dvd.dvd.mul_left this f
    · split
      · simp only [Bool.false_eq_true, false_iff]
        rw [fac_dvd_neg (by omega) (by omega)]
        intro h
        have h2 := Nat.le_of_dvd (by omega) h
        have h3 : 5 ^ 24 ≤ 5 ^ (floorLog10Pow2 e - 2).toNat := Nat.pow_le_pow_right (by decide) (by omega)
        have h4 : (2 : Nat) ^ 54 < 5 ^ 24 := by decide
        omega
      · rw [fac_dvd_neg (by omega) (by omega)]
        exact divisibleBy5_iff (by omega) (by omega)

end Verif
