import Verif.Proof.DragonboxFloatCore
import Verif.Proof.DragonboxNormal

/-!
# Dragonbox for `float`: what is found for a number that is not a power of two
-/

namespace Verif

attribute [local irreducible] modInv5 modInvPow5 ctz

/-- The quantities of `compute_nearest` for the exponent `e` and the significand `fc`, with `N` the number itself and `a` half the distance to the
next one, in units of the small power of ten. -/
structure NormFactsF (fc : Nat) (N a : ℚ) (zi xi yi Δ : Nat) : Prop where
  z1 : (zi : ℚ) ≤ N + a
  z2 : N + a < zi + 1
  x1 : (xi : ℚ) ≤ N - a
  x2 : N - a < xi + 1
  y1 : (yi : ℚ) ≤ N
  y2 : N < yi + 1
  d1 : (Δ : ℚ) ≤ 2 * a
  d2 : 2 * a < Δ + 1
  lo : 5 ≤ a
  hi : a < 50
  nn : N = 2 * fc * a
  fc1 : 1 ≤ fc
  fc2 : fc < 2 ^ 24

namespace NormFactsF

variable {fc : Nat} {N a : ℚ} {zi xi yi Δ : Nat} (h : NormFactsF fc N a zi xi yi Δ)
include h

theorem ge2a : 2 * a ≤ N := by
  rw [h.nn]
  have : (1 : ℚ) ≤ fc := by exact_mod_cast h.fc1
  have := h.lo
  nlinarith

theorem delta_lo : 10 ≤ Δ := by
  have : (9 : ℚ) < Δ := by have := h.d2; have := h.lo; linarith
  have : 9 < Δ := by exact_mod_cast this
  omega

theorem delta_hi : Δ < 100 := by
  have : (Δ : ℚ) < 100 := by have := h.d1; have := h.hi; linarith
  exact_mod_cast this

theorem zi_gt : Δ + 4 ≤ zi := by
  have : (Δ : ℚ) + 4 < zi + 1 := by have := h.d1; have := h.ge2a; have := h.z2; have := h.lo; linarith
  have : Δ + 4 < zi + 1 := by exact_mod_cast this
  omega

theorem zi_hi : zi < 1700000000 := by
  have h1 : (zi : ℚ) ≤ (2 * fc + 1) * a := by have := h.z1; rw [h.nn] at this; linarith
  have h2 : ((2 * fc + 1 : ℚ)) ≤ 2 ^ 25 := by
    have : 2 * fc + 1 ≤ 2 ^ 25 := by have := h.fc2; omega
    exact_mod_cast this
  have h3 : ((2 * fc + 1 : ℚ)) * a ≤ 2 ^ 25 * 50 := mul_le_mul h2 h.hi.le (by have := h.lo; linarith) (by positivity)
  have : (zi : ℚ) < 1700000000 := lt_of_le_of_lt (h1.trans h3) (by norm_num)
  exact_mod_cast this

theorem xi_cases : xi + Δ = zi ∨ xi + Δ + 1 = zi := by
  have h1 : (xi : ℚ) + Δ < zi + 1 := by have := h.x1; have := h.z2; have := h.d1; linarith
  have h2 : (zi : ℚ) < xi + Δ + 2 := by have := h.x2; have := h.z1; have := h.d2; linarith
  have h1 : xi + Δ < zi + 1 := by exact_mod_cast h1
  have h2 : zi < xi + Δ + 2 := by exact_mod_cast h2
  omega

theorem yi_cases : yi + Δ / 2 = zi ∨ yi + Δ / 2 + 1 = zi := by
  have e1 : ((Δ / 2 : Nat) : ℚ) ≤ a := by
    have : ((Δ / 2 : Nat) : ℚ) * 2 ≤ Δ := by exact_mod_cast Nat.div_mul_le_self Δ 2
    have := h.d1
    linarith
  have e2 : a < ((Δ / 2 : Nat) : ℚ) + 1 := by
    have : (Δ : ℚ) + 1 ≤ ((Δ / 2 : Nat) : ℚ) * 2 + 2 := by
      have : Δ + 1 ≤ Δ / 2 * 2 + 2 := by omega
      exact_mod_cast this
    have := h.d2
    linarith
  have h1 : (yi : ℚ) + (Δ / 2 : Nat) < zi + 1 := by have := h.y1; have := h.z2; linarith
  have h2 : (zi : ℚ) < yi + (Δ / 2 : Nat) + 2 := by have := h.y2; have := h.z1; linarith
  have h1 : yi + Δ / 2 < zi + 1 := by exact_mod_cast h1
  have h2 : zi < yi + Δ / 2 + 2 := by exact_mod_cast h2
  omega

/-- The decimal with the larger unit. -/
theorem big {closed : Bool}
    (hc : (zi % 100 < Δ ∧ ¬ (zi % 100 = 0 ∧ closed = false ∧ (zi : ℚ) = N + a)) ∨
      (zi % 100 = Δ ∧ (xi % 2 = 1 ∨ (closed = true ∧ (xi : ℚ) = N - a)))) :
    InIv closed (N - a) (N + a) (100 * (zi / 100 : Nat)) := by
  have hz : (zi : ℚ) = 100 * (zi / 100 : Nat) + (zi % 100 : Nat) := by exact_mod_cast (Nat.div_add_mod zi 100).symm
  have r0 : (0 : ℚ) ≤ (zi % 100 : Nat) := by positivity
  have hd0 := h.delta_lo
  have hx := h.xi_cases
  obtain ⟨z1, z2, x1, x2, y1, y2, d1, d2, lo, hi, nn, f1, f2⟩ := h
  rcases hc with ⟨hr, hn⟩ | ⟨hr, hp⟩
  · have hr' : ((zi % 100 : Nat) : ℚ) + 1 ≤ Δ := by exact_mod_cast hr
    refine ⟨by linarith, by linarith, fun ho => ⟨by linarith, ?_⟩⟩
    rcases Nat.eq_zero_or_pos (zi % 100) with h0 | h0
    · have : (zi : ℚ) ≠ N + a := fun he => hn ⟨h0, ho, he⟩
      have : (zi : ℚ) < N + a := lt_of_le_of_ne z1 this
      linarith
    · have : (0 : ℚ) < (zi % 100 : Nat) := by exact_mod_cast h0
      linarith
  · have hr' : ((zi % 100 : Nat) : ℚ) = Δ := by exact_mod_cast hr
    have hΔ : (10 : ℚ) ≤ Δ := by exact_mod_cast hd0
    rcases hp with hp | ⟨hp, hi⟩
    · have e : xi + 1 = 100 * (zi / 100) := by omega
      have e' : (xi : ℚ) + 1 = 100 * (zi / 100 : Nat) := by exact_mod_cast e
      exact ⟨by linarith, by linarith, fun _ => ⟨by linarith, by linarith⟩⟩
    · have e : xi = 100 * (zi / 100) ∨ xi + 1 = 100 * (zi / 100) := by omega
      refine ⟨?_, by linarith, fun ho => by rw [hp] at ho; cases ho⟩
      rcases e with e | e
      · have e' : (xi : ℚ) = 100 * (zi / 100 : Nat) := by exact_mod_cast e
        linarith
      · have e' : (xi : ℚ) + 1 = 100 * (zi / 100 : Nat) := by exact_mod_cast e
        linarith

/-- No decimal with the larger unit. -/
theorem none {closed : Bool}
    (hc : Δ < zi % 100 ∨ (zi % 100 = 0 ∧ closed = false ∧ (zi : ℚ) = N + a) ∨
      (zi % 100 = Δ ∧ xi % 2 = 0 ∧ (closed = false ∨ (xi : ℚ) ≠ N - a))) (i : Nat) :
    ¬ InIv closed (N - a) (N + a) (100 * i) := by
  intro hin
  have hz : (zi : ℚ) = 100 * (zi / 100 : Nat) + (zi % 100 : Nat) := by exact_mod_cast (Nat.div_add_mod zi 100).symm
  have hx := h.xi_cases
  obtain ⟨z1, z2, x1, x2, y1, y2, d1, d2, lo, hi, nn, f1, f2⟩ := h
  obtain ⟨i1, i2, i3⟩ := hin
  have hi' : i ≤ zi / 100 := by
    have : (100 * i : ℚ) < zi + 1 := lt_of_le_of_lt i2 z2
    have : 100 * i < zi + 1 := by exact_mod_cast this
    omega
  have hiq : (i : ℚ) ≤ (zi / 100 : Nat) := by exact_mod_cast hi'
  rcases hc with hr | ⟨hr, ho, he⟩ | ⟨hr, hp, ho⟩
  · have : (Δ : ℚ) + 1 ≤ (zi % 100 : Nat) := by exact_mod_cast hr
    linarith
  · have hr' : ((zi % 100 : Nat) : ℚ) = 0 := by exact_mod_cast hr
    rcases Nat.lt_or_ge i (zi / 100) with hlt | hge
    · have : (i : ℚ) + 1 ≤ (zi / 100 : Nat) := by exact_mod_cast hlt
      linarith
    · have : ((zi / 100 : Nat) : ℚ) ≤ i := by exact_mod_cast hge
      have := (i3 ho).2
      linarith
  · have e : xi = 100 * (zi / 100) := by omega
    have e' : (xi : ℚ) = 100 * (zi / 100 : Nat) := by exact_mod_cast e
    rcases ho with ho | ho
    · have := (i3 ho).1
      linarith
    · have : (xi : ℚ) < N - a := lt_of_le_of_ne x1 ho
      linarith

/-- The nearest multiple of the smaller unit lies in the interval. -/
theorem near {closed : Bool} {T : Nat} (h1 : (10 * T : ℚ) - N ≤ 5) (h2 : N - 10 * T ≤ 5) :
    InIv closed (N - a) (N + a) (10 * T) := by
  have lo := h.lo
  refine ⟨by linarith, by linarith, fun _ => ?_⟩
  rcases lo.lt_or_eq with hlt | heq
  · exact ⟨by linarith, by linarith⟩
  · have hN : N = 10 * fc := by rw [h.nn, ← heq]; ring
    rw [hN] at h1 h2
    have e1 : T ≤ fc := by
      by_contra hc
      have : (fc : ℚ) + 1 ≤ T := by exact_mod_cast Nat.lt_of_not_le hc
      linarith
    have e2 : fc ≤ T := by
      by_contra hc
      have : (T : ℚ) + 1 ≤ fc := by exact_mod_cast Nat.lt_of_not_le hc
      linarith
    have e : (T : ℚ) = fc := by exact_mod_cast Nat.le_antisymm e1 e2
    rw [hN, e]
    exact ⟨by linarith, by linarith⟩

end NormFactsF

theorem near_bestF {N : ℚ} {T : Nat} (h1 : (10 * T : ℚ) - N ≤ 5) (h2 : N - 10 * T ≤ 5) (i : Nat) : |(10 * T : ℚ) - N| ≤ |(10 * i : ℚ) - N| := by
  have h3 : |(10 * T : ℚ) - N| ≤ 5 := abs_le.2 ⟨by linarith, h1⟩
  rcases lt_trichotomy i T with hlt | rfl | hlt
  · have : (i : ℚ) + 1 ≤ T := by exact_mod_cast hlt
    exact h3.trans (le_abs.2 (.inr (by linarith)))
  · exact le_refl _
  · have : (T : ℚ) + 1 ≤ i := by exact_mod_cast hlt
    exact h3.trans (le_abs.2 (.inl (by linarith)))

/-- What `dfSmallPart` computes. -/
theorem dfSmallPart_near {fc : Nat} {N a : ℚ} {zi xi yi Δ : Nat} (h : NormFactsF fc N a zi xi yi Δ) {e mk : Int} {c b s' r' : Nat}
    (hpar : dfParity (2 * fc) c b = (yi % 2 == 1)) (hint : dfIsFc (2 * fc) e mk = true → (yi : ℚ) = N)
    (hz : zi = 100 * s' + r') (hr : r' ≤ 100) (hd : Δ ≤ r') :
    (10 * dfSmallPart fc e mk c b Δ (s' * 10 % 2 ^ 32) r' : ℚ) - N ≤ 5 ∧ N - 10 * dfSmallPart fc e mk c b Δ (s' * 10 % 2 ^ 32) r' ≤ 5 := by
  have hd0 := h.delta_lo
  have hd1 := h.delta_hi
  have hzh := h.zi_hi
  have hy := h.yi_cases
  have y1 := h.y1
  have y2 := h.y2
  have conv : ∀ {T w w' : Nat}, 10 * T + w = yi + w' → (w : ℚ) ≤ w' + 4 → (w' : ℚ) ≤ w + 5 → (10 * T : ℚ) - N ≤ 5 ∧ N - 10 * T ≤ 5 := by
    intro T w w' e e1 e2
    have e' : (10 * T : ℚ) + w = yi + w' := by exact_mod_cast e
    exact ⟨by linarith, by linarith⟩
  unfold dfSmallPart
  dsimp only
  rw [show s' * 10 % 2 ^ 32 = s' * 10 by omega, show (r' + 2 ^ 32 - Δ / 2 + 5) % 2 ^ 32 = r' - Δ / 2 + 5 by omega]
  generalize hdist : r' - Δ / 2 + 5 = dist
  have hdl : dist ≤ 100 := by omega
  by_cases h4 : dist % 2 = 0
  · rw [if_pos h4, checkDiv5_eq (by omega)]
    dsimp only
    by_cases h25 : dist / 2 % 5 = 0
    · rw [if_pos (by simpa using h25), hpar]
      have hx : ((dist ^^^ 5) % 2 == 1) = true := by
        have : (dist ^^^ 5) % 2 = 1 := by
          have h1 := Nat.xor_mod_two_pow (a := dist) (b := 5) (n := 1)
          rw [pow_one] at h1
          rw [h1, show dist % 2 = 0 by omega]
          rfl
        rw [this]; rfl
      rw [hx]
      rcases (Nat.mod_two_eq_zero_or_one yi).symm with hp | hp
      · rw [hp, if_neg (by decide)]
        have hyy : yi + Δ / 2 = zi := by omega
        split
        · rename_i hi
          have hiq := hint hi
          unfold breakTie
          have e : 10 * (s' * 10 + dist / 2 / 5) = yi + 5 := by omega
          split
          · have e' : (10 * (s' * 10 + dist / 2 / 5 : Nat) : ℚ) = yi + 5 := by exact_mod_cast e
            exact ⟨by linarith, by linarith⟩
          · have e1 : 10 * (s' * 10 + dist / 2 / 5 - 1) + 5 = yi := by omega
            have e' : (10 * (s' * 10 + dist / 2 / 5 - 1 : Nat) : ℚ) + 5 = yi := by exact_mod_cast e1
            exact ⟨by linarith, by linarith⟩
        · have e : 10 * (s' * 10 + dist / 2 / 5) + 0 = yi + 5 := by omega
          exact conv e (by norm_num) (by norm_num)
      · rw [hp, if_pos (by decide)]
        have hyy : yi + Δ / 2 + 1 = zi := by omega
        have e : 10 * (s' * 10 + dist / 2 / 5 - 1) + 4 = yi + 0 := by omega
        exact conv e (by norm_num) (by norm_num)
    · rw [if_neg (by simpa using h25)]
      rcases hy with hy | hy
      · exact conv (w := dist % 10) (w' := 5) (by omega) (by
          have : dist % 10 ≤ 9 := by omega
          have : ((dist % 10 : Nat) : ℚ) ≤ 9 := by exact_mod_cast this
          push_cast; linarith) (by push_cast; linarith [(Nat.cast_nonneg (dist % 10) : (0 : ℚ) ≤ _)])
      · exact conv (w := dist % 10) (w' := 6) (by omega) (by
          have : dist % 10 ≤ 9 := by omega
          have : ((dist % 10 : Nat) : ℚ) ≤ 9 := by exact_mod_cast this
          push_cast; linarith) (by
          have : 1 ≤ dist % 10 := by omega
          have : (1 : ℚ) ≤ ((dist % 10 : Nat) : ℚ) := by exact_mod_cast this
          push_cast; linarith)
  · rw [if_neg h4, smallDiv10_eq (by omega)]
    rcases hy with hy | hy
    · exact conv (w := dist % 10) (w' := 5) (by omega) (by
        have : dist % 10 ≤ 9 := by omega
        have : ((dist % 10 : Nat) : ℚ) ≤ 9 := by exact_mod_cast this
        push_cast; linarith) (by push_cast; linarith [(Nat.cast_nonneg (dist % 10) : (0 : ℚ) ≤ _)])
    · exact conv (w := dist % 10) (w' := 6) (by omega) (by
        have : dist % 10 ≤ 9 := by omega
        have : ((dist % 10 : Nat) : ℚ) ≤ 9 := by exact_mod_cast this
        push_cast; linarith) (by
        have : 1 ≤ dist % 10 := by omega
        have : (1 : ℚ) ≤ ((dist % 10 : Nat) : ℚ) := by exact_mod_cast this
        push_cast; linarith)

theorem ExpFactsF.norm {e mk : Int} {c b A B : Nat} (h : ExpFactsF e mk c b A B) {fc : Nat} (h1 : 1 ≤ fc) (h2 : fc < 2 ^ 24) :
    NormFactsF fc (2 * fc * (A / B : ℚ)) (A / B) ((2 * fc + 1) * A / B) ((2 * fc - 1) * A / B) (2 * fc * A / B) (dfDelta c b) := by
  have hq : (0 : ℚ) < B := by exact_mod_cast h.pos
  have ez : ((((2 * fc + 1) * A : Nat) : ℚ) / B) = 2 * fc * (A / B : ℚ) + A / B := by push_cast; ring
  have ex : ((((2 * fc - 1) * A : Nat) : ℚ) / B) = 2 * fc * (A / B : ℚ) - A / B := by
    rw [Nat.cast_mul, Nat.cast_sub (by omega)]
    push_cast
    ring
  have ey : (((2 * fc * A : Nat) : ℚ) / B) = 2 * fc * (A / B : ℚ) := by push_cast; ring
  have ed : (((2 * A : Nat) : ℚ) / B) = 2 * (A / B : ℚ) := by push_cast; ring
  refine ⟨?_, ?_, ?_, ?_, ?_, ?_, ?_, ?_, ?_, ?_, rfl, h1, h2⟩
  · rw [← ez]; exact natDiv_le _ h.pos
  · rw [← ez]; exact natDiv_lt _ h.pos
  · rw [← ex]; exact natDiv_le _ h.pos
  · rw [← ex]; exact natDiv_lt _ h.pos
  · rw [← ey]; exact natDiv_le _ h.pos
  · rw [← ey]; exact natDiv_lt _ h.pos
  · rw [h.delta, ← ed]; exact natDiv_le _ h.pos
  · rw [h.delta, ← ed]; exact natDiv_lt _ h.pos
  · rw [le_div_iff₀ hq]
    have : 5 * B ≤ A := by have := h.lo; omega
    exact_mod_cast this
  · rw [div_lt_iff₀ hq]
    have : A < 50 * B := by have := h.hi; omega
    exact_mod_cast this

/-- Half the distance to the next number, in units of the small power of ten. -/
def dfHalf (e : Int) : ℚ := (facNum e (-(floorLog10Pow2 e - 1)) : ℚ) / facDen e (-(floorLog10Pow2 e - 1))

theorem low_checkF : 7 * facDen (-149) (-(floorLog10Pow2 (-149) - 1)) ≤ facNum (-149) (-(floorLog10Pow2 (-149) - 1)) ∧
    100 * facNum (-149) (-(floorLog10Pow2 (-149) - 1)) ≤ 701 * facDen (-149) (-(floorLog10Pow2 (-149) - 1)) := by decide +kernel

theorem dfHalf_low {e : Int} (he : e = -149) : 7 ≤ dfHalf e ∧ 100 * dfHalf e ≤ 701 := by
  have h := low_checkF
  rw [← he] at h
  unfold dfHalf
  have hB := facDen_pos e (-(floorLog10Pow2 e - 1))
  generalize facNum e (-(floorLog10Pow2 e - 1)) = A at *
  generalize facDen e (-(floorLog10Pow2 e - 1)) = B at *
  have hq : (0 : ℚ) < B := by exact_mod_cast hB
  constructor
  · rw [le_div_iff₀ hq]; exact_mod_cast h.1
  · rw [← mul_div_assoc, div_le_iff₀ hq]; exact_mod_cast h.2

theorem NormFactsF.best10 {fc : Nat} {N a : ℚ} {zi xi yi Δ : Nat} (h : NormFactsF fc N a zi xi yi Δ) (hn : (7 ≤ a ∧ 100 * a ≤ 701) ∨ 16 ≤ fc) {x w : ℚ}
    (h1 : x - N ≤ 5) (h2 : N - x ≤ 5) (hw : w ≤ 9) : |x - N| ≤ |w - N| := by
  have := h.lo
  have hN : 14 ≤ N := by
    rcases hn with hn | hn
    · have := h.ge2a
      linarith [hn.1]
    · rw [h.nn]
      have : (16 : ℚ) ≤ fc := by exact_mod_cast hn
      nlinarith
  exact le_trans (abs_le.2 ⟨by linarith, by linarith⟩ : |x - N| ≤ N - w) (le_abs.2 (.inr (by linarith)))

theorem NormFactsF.at100 {fc : Nat} {N a : ℚ} {zi xi yi Δ : Nat} (h : NormFactsF fc N a zi xi yi Δ) (hn : (7 ≤ a ∧ 100 * a ≤ 701) ∨ 16 ≤ fc) {closed : Bool}
    (hin : InIv closed (N - a) (N + a) 100) {w : ℚ} (hw : w ≤ 90) : |(100 : ℚ) - N| ≤ |w - N| := by
  obtain ⟨h1, h2, -⟩ := hin
  have := h.lo
  have hN : 95 ≤ N := by
    rcases hn with hn | hn
    · rw [h.nn] at h1 h2 ⊢
      have : 7 ≤ fc := by
        by_contra hc
        have : fc ≤ 6 := by omega
        have : (fc : ℚ) ≤ 6 := by exact_mod_cast this
        nlinarith [hn.2, hn.1]
      have : (7 : ℚ) ≤ fc := by exact_mod_cast this
      nlinarith [hn.1]
    · rw [h.nn] at h1
      have : (16 : ℚ) ≤ fc := by exact_mod_cast hn
      nlinarith
  refine le_trans (abs_le.2 ⟨?_, ?_⟩ : |(100 : ℚ) - N| ≤ N - w) (le_abs.2 (.inr (by linarith)))
  · linarith
  · linarith

theorem dfBigCase_split {fc : Nat} {N a : ℚ} {zi xi yi Δ : Nat} (hN : NormFactsF fc N a zi xi yi Δ) (hhalf : (7 ≤ a ∧ 100 * a ≤ 701) ∨ 16 ≤ fc) {closed : Bool}
    {mk : Int} (hin : InIv closed (N - a) (N + a) (100 * (zi / 100 : Nat))) :
    ∃ z : Nat, z ≤ 19 ∧ (dfBigCase mk (zi / 100)).1 < 10 ^ 9 ∧ (dfBigCase mk (zi / 100)).2 = mk + z ∧
      DbSplit (InIv closed (N - a) (N + a)) N 2 (dfBigCase mk (zi / 100)).1 z := by
  have hzh := hN.zi_hi
  have hsh : zi / 100 < 10 ^ 8 := by omega
  generalize zi / 100 = s at *
  have hs0 : 0 < s := by
    rcases Nat.eq_zero_or_pos s with h0 | h0
    · exfalso
      rw [h0] at hin
      have a1 := hin.1
      have a2 := hN.ge2a
      have a3 := hN.lo
      push_cast at a1
      linarith
    · exact h0
  obtain ⟨r1, r2, r3⟩ := dfRemoveZeros_spec hs0 hsh
  unfold dfBigCase
  generalize dfRemoveZeros s = w at *
  obtain ⟨n, z⟩ := w
  dsimp only at *
  have hn0 : 0 < n := by
    rcases Nat.eq_zero_or_pos n with h0 | h0
    · rw [h0] at r1; omega
    · exact h0
  have hns : n ≤ s := by rw [← r1]; exact Nat.le_mul_of_pos_right _ (Nat.pow_pos (by decide))
  have hval : (n * 10 ^ (z + 2) : ℚ) = 100 * (s : Nat) := by
    rw [← r1]
    push_cast
    rw [pow_add]
    ring
  refine ⟨z + 2, by omega, by omega, by push_cast; ring, ⟨by rw [hval]; exact hin, hn0, r2, .inl ⟨by omega, fun i hi => ?_, fun g1 g2 w hw => ?_⟩⟩⟩
  · rw [hval]
    rw [show (10 : ℚ) ^ 2 = 100 by norm_num] at hi ⊢
    have a1 := hin.1
    have a2 := hin.2.1
    have a3 := hi.1
    have a4 := hi.2.1
    have a5 := hN.hi
    have : i = s := by
      rcases lt_trichotomy i s with hlt | heq | hlt
      · exfalso
        have : (i : ℚ) + 1 ≤ s := by exact_mod_cast hlt
        linarith
      · exact heq
      · exfalso
        have : (s : ℚ) + 1 ≤ i := by exact_mod_cast hlt
        linarith
    rw [this]
  · have hv1 : (n * 10 ^ (z + 2) : ℚ) = 100 := by rw [g1, g2]; norm_num
    rw [hv1]
    rw [hv1] at hval
    rw [← hval] at hin
    exact hN.at100 hhalf hin (by norm_num at hw ⊢; exact hw)

theorem dfSmallCase_split {fc : Nat} {N a : ℚ} {zi xi yi Δ : Nat} (hN : NormFactsF fc N a zi xi yi Δ) (hhalf : (7 ≤ a ∧ 100 * a ≤ 701) ∨ 16 ≤ fc) {closed : Bool}
    {e mk : Int} {c b s' r' : Nat}
    (hpar : dfParity (2 * fc) c b = (yi % 2 == 1)) (hint : dfIsFc (2 * fc) e mk = true → (yi : ℚ) = N)
    (hz : zi = 100 * s' + r') (hr : r' ≤ 100) (hd : Δ ≤ r') (hno : ∀ i : Nat, ¬ InIv closed (N - a) (N + a) (100 * i)) :
    ∃ z : Nat, z ≤ 19 ∧ (dfSmallCase fc e mk c b Δ s' r').1 < 10 ^ 9 ∧ (dfSmallCase fc e mk c b Δ s' r').2 = mk + z ∧
      DbSplit (InIv closed (N - a) (N + a)) N 2 (dfSmallCase fc e mk c b Δ s' r').1 z := by
  obtain ⟨t1, t2⟩ := dfSmallPart_near hN hpar hint hz hr hd
  have hzh := hN.zi_hi
  unfold dfSmallCase
  dsimp only
  generalize dfSmallPart _ _ _ _ _ _ _ _ = T at *
  have hin : InIv closed (N - a) (N + a) (10 * T) := hN.near t1 t2
  have hT0 : 0 < T := by
    rcases Nat.eq_zero_or_pos T with h0 | h0
    · exfalso
      exact hno 0 (by rw [h0] at hin; simpa using hin)
    · exact h0
  have hTh : T < 10 ^ 9 := by
    have a1 := hN.z2
    have a2 := hin.2.1
    have : (10 * T : ℚ) < zi + 1 := lt_of_le_of_lt a2 a1
    have : 10 * T < zi + 1 := by exact_mod_cast this
    omega
  have hval : (T * 10 ^ 1 : ℚ) = 10 * T := by ring
  have h103 : (10 : ℚ) ^ 2 = 100 := by norm_num
  have h102 : (10 : ℚ) ^ 1 = 10 := by norm_num
  refine ⟨1, by omega, hTh, by push_cast; rfl, ⟨by rw [hval]; exact hin, hT0, ?_, .inr ⟨rfl, fun i => by rw [h103]; exact hno i, fun i _ => ?_, .inr (.inr ⟨le_refl _, fun w hw => ?_⟩)⟩⟩⟩
  · rintro ⟨q, rfl⟩
    apply hno q
    convert hin using 1
    push_cast
    ring
  · rw [hval, h102]
    exact near_bestF t1 t2 i
  · rw [hval]
    exact hN.best10 hhalf t1 t2 (by simpa using hw)

/-- `compute_nearest` after its first steps. -/
def dfBody (fc : Nat) (e : Int) (closed : Bool) (mk : Int) (c b delta zi : Nat) : Nat × Int :=
  if delta < zi % 100 then dfSmallCase fc e mk c b delta (zi / 100) (zi % 100)
  else if zi % 100 < delta then
    if zi % 100 = 0 ∧ closed = false ∧ dfIsHalf (2 * fc + 1) e mk = true then dfSmallCase fc e mk c b delta (zi / 100 - 1) 100
    else dfBigCase mk (zi / 100)
  else if (closed = false ∨ dfIsHalf (2 * fc - 1) e mk = false) ∧ dfParity (2 * fc - 1) c b = false then dfSmallCase fc e mk c b delta (zi / 100) (zi % 100)
  else dfBigCase mk (zi / 100)

theorem dfBody_split {fc : Nat} {N a : ℚ} {zi xi yi Δ : Nat} (hN : NormFactsF fc N a zi xi yi Δ) (hhalf : (7 ≤ a ∧ 100 * a ≤ 701) ∨ 16 ≤ fc) {closed : Bool}
    {e mk : Int} {c b : Nat}
    (py : dfParity (2 * fc) c b = (yi % 2 == 1)) (px : dfParity (2 * fc - 1) c b = (xi % 2 == 1))
    (iy : dfIsFc (2 * fc) e mk = true → (yi : ℚ) = N) (ix : dfIsHalf (2 * fc - 1) e mk = true ↔ (xi : ℚ) = N - a)
    (iz : dfIsHalf (2 * fc + 1) e mk = true ↔ (zi : ℚ) = N + a) :
    ∃ z : Nat, z ≤ 19 ∧ (dfBody fc e closed mk c b Δ zi).1 < 10 ^ 9 ∧ (dfBody fc e closed mk c b Δ zi).2 = mk + z ∧
      DbSplit (InIv closed (N - a) (N + a)) N 2 (dfBody fc e closed mk c b Δ zi).1 z := by
  have hzg := hN.zi_gt
  have hdl := hN.delta_lo
  have hdh := hN.delta_hi
  have hdm := (Nat.div_add_mod zi 100).symm
  have hml := Nat.mod_lt zi (show 100 > 0 by decide)
  unfold dfBody
  by_cases hc : Δ < zi % 100
  · rw [if_pos hc]
    exact dfSmallCase_split hN hhalf py iy hdm hml.le hc.le (hN.none (.inl hc))
  · rw [if_neg hc]
    by_cases hc2 : zi % 100 < Δ
    · rw [if_pos hc2]
      by_cases hc3 : zi % 100 = 0 ∧ closed = false ∧ dfIsHalf (2 * fc + 1) e mk = true
      · rw [if_pos hc3]
        obtain ⟨c1, c2, c3⟩ := hc3
        exact dfSmallCase_split hN hhalf py iy (by omega) (le_refl _) (by omega) (hN.none (.inr (.inl ⟨c1, c2, iz.1 c3⟩)))
      · rw [if_neg hc3]
        exact dfBigCase_split hN hhalf (hN.big (.inl ⟨hc2, fun hx => hc3 ⟨hx.1, hx.2.1, iz.2 hx.2.2⟩⟩))
    · rw [if_neg hc2, px]
      have heq : zi % 100 = Δ := by omega
      by_cases hc3 : (closed = false ∨ dfIsHalf (2 * fc - 1) e mk = false) ∧ (xi % 2 == 1) = false
      · rw [if_pos hc3]
        obtain ⟨c1, c2⟩ := hc3
        refine dfSmallCase_split hN hhalf py iy hdm hml.le heq.ge (hN.none (.inr (.inr ⟨heq, ?_, c1.imp id fun hx hy => ?_⟩)))
        · rcases Nat.mod_two_eq_zero_or_one xi with g | g
          · exact g
          · rw [g] at c2; cases c2
        · rw [ix.2 hy] at hx
          cases hx
      · rw [if_neg hc3]
        refine dfBigCase_split hN hhalf (hN.big (.inr ⟨heq, ?_⟩))
        rcases Nat.mod_two_eq_zero_or_one xi with g | g
        · right
          rw [g] at hc3
          have hc3 : ¬ (closed = false ∨ dfIsHalf (2 * fc - 1) e mk = false) := fun hx => hc3 ⟨hx, by decide⟩
          rw [not_or] at hc3
          exact ⟨by simpa using hc3.1, ix.1 (by simpa using hc3.2)⟩
        · exact .inl g

theorem dfNormal_body {fc : Nat} {e : Int} {closed : Bool} {zi : Nat} (hzh : zi < 1700000000)
    (hzi : umul96Upper ((2 * fc + 1) * 2 ^ (e + floorLog2Pow10 (-(floorLog10Pow2 e - 1))).toNat % 2 ^ 32) (dfGet (-(floorLog10Pow2 e - 1))) = zi) :
    dfNormal fc e closed = dfBody fc e closed (floorLog10Pow2 e - 1) (dfGet (-(floorLog10Pow2 e - 1)))
      (e + floorLog2Pow10 (-(floorLog10Pow2 e - 1))).toNat
      (dfDelta (dfGet (-(floorLog10Pow2 e - 1))) (e + floorLog2Pow10 (-(floorLog10Pow2 e - 1))).toNat) zi := by
  unfold dfNormal dfBody
  dsimp only
  generalize floorLog10Pow2 e - 1 = mk at *
  generalize dfGet (-mk) = c at *
  generalize (e + floorLog2Pow10 (-mk)).toNat = b at *
  rw [hzi]
  have hr : (zi + 2 ^ 32 - 100 * (zi / 100) % 2 ^ 32) % 2 ^ 32 = zi % 100 := by omega
  rw [hr]

/-- The result of the ordinary case. -/
theorem dfNormal_split {fc : Nat} {e : Int} {closed : Bool} (h1 : -149 ≤ e) (h2 : e ≤ 104) (hf1 : 1 ≤ fc) (hf2 : fc < 2 ^ 24)
    (hn : e = -149 ∨ 16 ≤ fc) :
    ∃ z : Nat, z ≤ 19 ∧ (dfNormal fc e closed).1 < 10 ^ 9 ∧ (dfNormal fc e closed).2 = floorLog10Pow2 e - 1 + z ∧
      DbSplit (InIv closed (2 * fc * dfHalf e - dfHalf e) (2 * fc * dfHalf e + dfHalf e)) (2 * fc * dfHalf e) 2 (dfNormal fc e closed).1 z := by
  have hE := expFactsF h1 h2
  have hN := hE.norm hf1 hf2
  have hhalf : (7 ≤ dfHalf e ∧ 100 * dfHalf e ≤ 701) ∨ 16 ≤ fc := hn.imp (fun he => dfHalf_low he) id
  have hpos := hE.pos
  have iz := dfIsHalf_iff (f := 2 * fc + 1) h1 (by omega) (by omega)
  have ix := dfIsHalf_iff (f := 2 * fc - 1) h1 (by omega) (by omega)
  have iy := dfIsFc_sound (f := 2 * fc) h1 (by omega) ⟨fc, rfl⟩
  rw [← natDiv_eq_iff hpos] at iz ix iy
  have px := dfParity_eq hE (f := 2 * fc - 1) (by omega)
  have py := dfParity_eq hE (f := 2 * fc) (by omega)
  have hb9 := hE.b6
  have hlt : (2 * fc + 1) * 2 ^ (e + floorLog2Pow10 (-(floorLog10Pow2 e - 1))).toNat < 2 ^ 32 := by
    have a1 : (2 : Nat) ^ (e + floorLog2Pow10 (-(floorLog10Pow2 e - 1))).toNat ≤ 2 ^ 6 := Nat.pow_le_pow_right (by decide) hb9
    have a2 := Nat.mul_le_mul (show 2 * fc + 1 ≤ 2 ^ 25 by omega) a1
    have a3 : (2 : Nat) ^ 25 * 2 ^ 6 < 2 ^ 32 := by decide
    omega
  have hzi : umul96Upper ((2 * fc + 1) * 2 ^ (e + floorLog2Pow10 (-(floorLog10Pow2 e - 1))).toNat % 2 ^ 32) (dfGet (-(floorLog10Pow2 e - 1))) =
      (2 * fc + 1) * facNum e (-(floorLog10Pow2 e - 1)) / facDen e (-(floorLog10Pow2 e - 1)) := by
    rw [Nat.mod_eq_of_lt hlt, umul96Upper_eq hlt hE.c1, hE.floor _ (by omega)]
  rw [dfNormal_body hN.zi_hi hzi]
  unfold dfHalf at hhalf ⊢
  clear hzi hlt hE
  generalize floorLog10Pow2 e - 1 = mk at *
  generalize dfGet (-mk) = c at *
  generalize (e + floorLog2Pow10 (-mk)).toNat = b at *
  generalize facNum e (-mk) = A at *
  generalize facDen e (-mk) = B at *
  refine dfBody_split hN hhalf py px (fun h => ?_) (ix.trans ?_) (iz.trans ?_)
  · rw [iy h]
    push_cast; ring
  · have : ((((2 * fc - 1) * A : Nat) : ℚ) / B) = 2 * fc * (A / B : ℚ) - A / B := by
      rw [Nat.cast_mul, Nat.cast_sub (by omega)]
      push_cast
      ring
    rw [this]
  · have : ((((2 * fc + 1) * A : Nat) : ℚ) / B) = 2 * fc * (A / B : ℚ) + A / B := by
      push_cast
      ring
    rw [this]

end Verif
