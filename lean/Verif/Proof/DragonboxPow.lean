import Verif.Proof.DragonboxNormal

/-!
# Dragonbox: what is found for the powers of two

There are 2046 of them: the kernel computes each.
-/

namespace Verif

/-- A quarter of the distance to the next larger number. -/
def powNum (e : Int) : Nat := facNum (e - 1) (-floorLog10Pow2Minus e)

def powDen (e : Int) : Nat := facDen (e - 1) (-floorLog10Pow2Minus e)

/-- The next smaller number is half as far away, but for the smallest normal number. -/
def powLeft (e : Int) : Nat := if e = -1074 then 2 ^ 54 - 2 else 2 ^ 54 - 1

def shortOk (e : Int) : Bool :=
  let r := dbShorter e
  let sig := r.1
  let z := (r.2 - floorLog10Pow2Minus e).toNat
  let A := powNum e
  let B := powDen e
  let L := powLeft e * A
  let H := (2 ^ 54 + 2) * A
  let v := 2 ^ 54 * A
  let V := sig * 10 ^ z
  decide (r.2 = floorLog10Pow2Minus e + z ∧ z ≤ 20 ∧ L ≤ V * B ∧ V * B ≤ H ∧ 0 < sig ∧ sig < 10 ^ 17 ∧ sig % 10 ≠ 0) &&
    (decide (1 ≤ z ∧ H < L + 10 * B ∧ (sig ≠ 1 ∨ z ≠ 1)) ||
      decide (z = 0 ∧ H / B / 10 * 10 * B < L ∧ 10 ≤ sig ∧ (v ≤ V * B → (V - 1) * B < L ∨ V * B + (V - 1) * B ≤ 2 * v) ∧
        (V * B ≤ v → H < (V + 1) * B ∨ 2 * v ≤ (V + 1) * B + V * B)))

theorem shortOk_0 : ∀ i : Nat, i < 512 → shortOk ((i : Int) - 1074) = true := by decide +kernel

theorem shortOk_1 : ∀ i : Nat, i < 512 → shortOk ((i : Int) - 562) = true := by decide +kernel

theorem shortOk_2 : ∀ i : Nat, i < 512 → shortOk ((i : Int) - 50) = true := by decide +kernel

theorem shortOk_3 : ∀ i : Nat, i < 510 → shortOk ((i : Int) + 462) = true := by decide +kernel

theorem shortOk_all {e : Int} (h1 : -1074 ≤ e) (h2 : e ≤ 971) : shortOk e = true := by
  by_cases c1 : e < -562
  · have := shortOk_0 (e + 1074).toNat (by omega)
    rwa [show (((e + 1074).toNat : Nat) : Int) - 1074 = e by omega] at this
  by_cases c2 : e < -50
  · have := shortOk_1 (e + 562).toNat (by omega)
    rwa [show (((e + 562).toNat : Nat) : Int) - 562 = e by omega] at this
  by_cases c3 : e < 462
  · have := shortOk_2 (e + 50).toNat (by omega)
    rwa [show (((e + 50).toNat : Nat) : Int) - 50 = e by omega] at this
  · have := shortOk_3 (e - 462).toNat (by omega)
    rwa [show (((e - 462).toNat : Nat) : Int) + 462 = e by omega] at this

/-- Half of that, in units of the small power of ten. -/
def powQuarter (e : Int) : ℚ := (powNum e : ℚ) / powDen e

theorem split_of_nat {B L H v sig z : Nat} (hB : 0 < B) (h1 : L ≤ sig * 10 ^ z * B) (h2 : sig * 10 ^ z * B ≤ H) (h3 : 0 < sig) (h4 : sig % 10 ≠ 0)
    (h5 : (1 ≤ z ∧ H < L + 10 * B ∧ (sig ≠ 1 ∨ z ≠ 1)) ∨
      (z = 0 ∧ H / B / 10 * 10 * B < L ∧ 10 ≤ sig ∧ (v ≤ sig * 10 ^ z * B → (sig * 10 ^ z - 1) * B < L ∨ sig * 10 ^ z * B + (sig * 10 ^ z - 1) * B ≤ 2 * v) ∧
        (sig * 10 ^ z * B ≤ v → H < (sig * 10 ^ z + 1) * B ∨ 2 * v ≤ (sig * 10 ^ z + 1) * B + sig * 10 ^ z * B))) :
    DbSplit (InIv true (L / B) (H / B)) (v / B) 1 sig z := by
  have hq : (0 : ℚ) < B := by exact_mod_cast hB
  have mem : ∀ {w : Nat}, InIv true (L / B) (H / B) (w : ℚ) ↔ L ≤ w * B ∧ w * B ≤ H := by
    intro w
    unfold InIv
    rw [div_le_iff₀ hq, le_div_iff₀ hq]
    constructor
    · rintro ⟨g1, g2, -⟩
      exact ⟨by exact_mod_cast g1, by exact_mod_cast g2⟩
    · rintro ⟨g1, g2⟩
      exact ⟨by exact_mod_cast g1, by exact_mod_cast g2, fun h => by cases h⟩
  have e1 : (sig * 10 ^ z : ℚ) = ((sig * 10 ^ z : Nat) : ℚ) := by push_cast; rfl
  refine ⟨by rw [e1]; exact mem.2 ⟨h1, h2⟩, h3, fun hd => by omega, ?_⟩
  rcases h5 with ⟨z1, hw, hs⟩ | ⟨z0, hno, hs, c1, c2⟩
  · refine .inl ⟨z1, fun i hi => ?_, fun g1 g2 => by omega⟩
    have e2 : (10 ^ 1 * i : ℚ) = ((10 * i : Nat) : ℚ) := by push_cast; ring
    rw [e2] at hi ⊢
    rw [e1]
    obtain ⟨i1, i2⟩ := mem.1 hi
    obtain ⟨n, rfl⟩ : ∃ n, z = n + 1 := ⟨z - 1, by omega⟩
    have e3 : sig * 10 ^ (n + 1) = 10 * (sig * 10 ^ n) := by rw [pow_succ]; ring
    rw [e3] at h1 h2 ⊢
    have : i = sig * 10 ^ n := by
      rcases lt_trichotomy i (sig * 10 ^ n) with hlt | heq | hlt
      · exfalso
        have := Nat.mul_le_mul_right B (show 10 * i + 10 ≤ 10 * (sig * 10 ^ n) by omega)
        rw [Nat.add_mul] at this
        omega
      · exact heq
      · exfalso
        have := Nat.mul_le_mul_right B (show 10 * (sig * 10 ^ n) + 10 ≤ 10 * i by omega)
        rw [Nat.add_mul] at this
        omega
    rw [this]
  · subst z0
    rw [pow_zero, mul_one] at h1 h2 c1 c2
    refine .inr ⟨rfl, fun i hi => ?_, fun i hi => ?_, .inl hs⟩
    · have e2 : (10 ^ 1 * i : ℚ) = ((10 * i : Nat) : ℚ) := by push_cast; ring
      rw [e2] at hi
      obtain ⟨i1, i2⟩ := mem.1 hi
      have : 10 * i ≤ H / B := (Nat.le_div_iff_mul_le hB).2 i2
      have := Nat.mul_le_mul_right B (show 10 * i ≤ H / B / 10 * 10 by omega)
      omega
    · rw [pow_zero, one_mul] at hi
      obtain ⟨i1, i2⟩ := mem.1 hi
      rw [pow_zero, mul_one, one_mul]
      have hmul : ∀ x : ℚ, |x - v / B| = |x * B - v| / B := by
        intro x
        rw [← abs_of_pos hq, ← abs_div, abs_of_pos hq]
        congr 1
        rw [sub_div, mul_div_cancel_right₀ _ hq.ne']
      rw [hmul, hmul]
      refine div_le_div_of_nonneg_right ?_ hq.le
      have c1' : (v : ℚ) ≤ sig * B → i < sig → (sig * B : ℚ) + i * B ≤ 2 * v := by
        intro g1 g2
        have hle := Nat.mul_le_mul_right B (show i ≤ sig - 1 by omega)
        rcases c1 (by exact_mod_cast g1) with g | g
        · omega
        · have : sig * B + i * B ≤ 2 * v := by omega
          exact_mod_cast this
      have c2' : (sig * B : ℚ) ≤ v → sig < i → (2 * v : ℚ) ≤ i * B + sig * B := by
        intro g1 g2
        have hle := Nat.mul_le_mul_right B (show sig + 1 ≤ i by omega)
        rcases c2 (by exact_mod_cast g1) with g | g
        · omega
        · have : 2 * v ≤ i * B + sig * B := by omega
          exact_mod_cast this
      rcases lt_trichotomy i sig with hlt | rfl | hlt
      · have hlt' : (i * B : ℚ) ≤ sig * B := by
          have := Nat.mul_le_mul_right B hlt.le
          exact_mod_cast this
        rcases le_total (v : ℚ) (sig * B) with g | g
        · have := c1' g hlt
          rw [abs_of_nonneg (by linarith)]
          exact le_abs.2 (.inr (by linarith))
        · rw [abs_of_nonpos (by linarith)]
          exact le_abs.2 (.inr (by linarith))
      · exact le_refl _
      · have hlt' : (sig * B : ℚ) ≤ i * B := by
          have := Nat.mul_le_mul_right B hlt.le
          exact_mod_cast this
        rcases le_total (v : ℚ) (sig * B) with g | g
        · rw [abs_of_nonneg (by linarith)]
          exact le_abs.2 (.inl (by linarith))
        · have := c2' g hlt
          rw [abs_of_nonpos (by linarith)]
          exact le_abs.2 (.inl (by linarith))

/-- The result for a power of two. -/
theorem dbShorter_split {e : Int} (h1 : -1074 ≤ e) (h2 : e ≤ 971) :
    ∃ z : Nat, z ≤ 20 ∧ (dbShorter e).1 < 10 ^ 17 ∧ (dbShorter e).2 = floorLog10Pow2Minus e + z ∧
      DbSplit (InIv true ((powLeft e * powNum e : Nat) / powDen e) (((2 ^ 54 + 2) * powNum e : Nat) / powDen e)) ((2 ^ 54 * powNum e : Nat) / powDen e) 1
        (dbShorter e).1 z := by
  have h := shortOk_all h1 h2
  unfold shortOk at h
  simp only [Bool.and_eq_true, Bool.or_eq_true, decide_eq_true_eq] at h
  obtain ⟨⟨a1, a2, a3, a4, a5, a6, a7⟩, a8⟩ := h
  refine ⟨_, a2, a6, a1, split_of_nat (facDen_pos _ _) a3 a4 a5 a7 a8⟩

end Verif
