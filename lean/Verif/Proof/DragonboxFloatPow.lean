import Verif.Proof.DragonboxFloatNormal
import Verif.Proof.DragonboxPow

/-!
# Dragonbox for floats: what is found for the powers of two

There are 254 of them: the kernel computes each.
-/

namespace Verif

/-- The next smaller number is half as far away, but for the smallest normal number. -/
def powLeftF (e : Int) : Nat := if e = -149 then 2 ^ 25 - 2 else 2 ^ 25 - 1

def shortOkF (e : Int) : Bool :=
  let r := dfShorter e
  let sig := r.1
  let z := (r.2 - floorLog10Pow2Minus e).toNat
  let A := powNum e
  let B := powDen e
  let L := powLeftF e * A
  let H := (2 ^ 25 + 2) * A
  let v := 2 ^ 25 * A
  let V := sig * 10 ^ z
  decide (r.2 = floorLog10Pow2Minus e + z ∧ z ≤ 20 ∧ L ≤ V * B ∧ V * B ≤ H ∧ 0 < sig ∧ sig < 10 ^ 9 ∧ sig % 10 ≠ 0) &&
    (decide (1 ≤ z ∧ H < L + 10 * B ∧ (sig ≠ 1 ∨ z ≠ 1)) ||
      decide (z = 0 ∧ H / B / 10 * 10 * B < L ∧ 10 ≤ sig ∧ (v ≤ V * B → (V - 1) * B < L ∨ V * B + (V - 1) * B ≤ 2 * v) ∧
        (V * B ≤ v → H < (V + 1) * B ∨ 2 * v ≤ (V + 1) * B + V * B)))

theorem shortOkF_0 : ∀ i : Nat, i < 254 → shortOkF ((i : Int) - 149) = true := by decide +kernel

theorem shortOkF_all {e : Int} (h1 : -149 ≤ e) (h2 : e ≤ 104) : shortOkF e = true := by
  have := shortOkF_0 (e + 149).toNat (by omega)
  rwa [show (((e + 149).toNat : Nat) : Int) - 149 = e by omega] at this

/-- The result for a power of two. -/
theorem dfShorter_split {e : Int} (h1 : -149 ≤ e) (h2 : e ≤ 104) :
    ∃ z : Nat, z ≤ 20 ∧ (dfShorter e).1 < 10 ^ 9 ∧ (dfShorter e).2 = floorLog10Pow2Minus e + z ∧
      DbSplit (InIv true ((powLeftF e * powNum e : Nat) / powDen e) (((2 ^ 25 + 2) * powNum e : Nat) / powDen e)) ((2 ^ 25 * powNum e : Nat) / powDen e) 1
        (dfShorter e).1 z := by
  have h := shortOkF_all h1 h2
  unfold shortOkF at h
  simp only [Bool.and_eq_true, Bool.or_eq_true, decide_eq_true_eq] at h
  obtain ⟨⟨a1, a2, a3, a4, a5, a6, a7⟩, a8⟩ := h
  refine ⟨_, a2, a6, a1, split_of_nat (facDen_pos _ _) a3 a4 a5 a7 a8⟩

end Verif
