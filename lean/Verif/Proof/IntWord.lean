import Verif.Model.Int
import Verif.Spec.Num

/-!
# Word-at-a-time digit decoding
-/

namespace Verif

open Spec

theorem land_cons {a b : Nat} (x y : Nat) (ha : a < 256) (hb : b < 256) :
    (a + 256 * x) &&& (b + 256 * y) = (a &&& b) + 256 * (x &&& y) := by
  apply Nat.eq_of_testBit_eq
  intro j
  have h : ∀ p q : Nat, p < 256 → (p + 256 * q).testBit j = if j < 8 then p.testBit j else q.testBit (j - 8) := by
    intro p q hp
    have := Nat.testBit_two_pow_mul_add q (i := 8) (b := p) (by simpa using hp) j
    rw [show p + 256 * q = 2 ^ 8 * q + p by omega]
    exact this
  have hab : a &&& b < 256 := Nat.lt_of_le_of_lt Nat.and_le_left ha
  rw [Nat.testBit_and, h a x ha, h b y hb, h _ _ hab, Nat.testBit_and, Nat.testBit_and]
  split <;> rfl

theorem lor_cons {a b : Nat} (x y : Nat) (ha : a < 256) (hb : b < 256) :
    (a + 256 * x) ||| (b + 256 * y) = (a ||| b) + 256 * (x ||| y) := by
  apply Nat.eq_of_testBit_eq
  intro j
  have h : ∀ p q : Nat, p < 256 → (p + 256 * q).testBit j = if j < 8 then p.testBit j else q.testBit (j - 8) := by
    intro p q hp
    have := Nat.testBit_two_pow_mul_add q (i := 8) (b := p) (by simpa using hp) j
    rw [show p + 256 * q = 2 ^ 8 * q + p by omega]
    exact this
  have hab : a ||| b < 256 := Nat.or_lt_two_pow (n := 8) ha hb
  rw [Nat.testBit_or, h a x ha, h b y hb, h _ _ hab, Nat.testBit_or, Nat.testBit_or]
  split <;> rfl

/-- Eight bytes as a word. -/
def w8 (a b c d e f g h : Nat) : Nat :=
  a + 256 * (b + 256 * (c + 256 * (d + 256 * (e + 256 * (f + 256 * (g + 256 * (h + 256 * 0)))))))

theorem land8 {a b c d e f g h : Nat} {a' b' c' d' e' f' g' h' : Nat}
    (ha : a < 256) (hb : b < 256) (hc : c < 256) (hd : d < 256) (he : e < 256) (hf : f < 256)
    (hg : g < 256) (hh : h < 256)
    (ha' : a' < 256) (hb' : b' < 256) (hc' : c' < 256) (hd' : d' < 256) (he' : e' < 256) (hf' : f' < 256)
    (hg' : g' < 256) (hh' : h' < 256) :
    w8 a b c d e f g h &&& w8 a' b' c' d' e' f' g' h'
      = w8 (a &&& a') (b &&& b') (c &&& c') (d &&& d') (e &&& e') (f &&& f') (g &&& g') (h &&& h') := by
  unfold w8
  rw [land_cons _ _ ha ha', land_cons _ _ hb hb', land_cons _ _ hc hc', land_cons _ _ hd hd',
    land_cons _ _ he he', land_cons _ _ hf hf', land_cons _ _ hg hg', land_cons _ _ hh hh']
  simp

theorem lor8 {a b c d e f g h : Nat} {a' b' c' d' e' f' g' h' : Nat}
    (ha : a < 256) (hb : b < 256) (hc : c < 256) (hd : d < 256) (he : e < 256) (hf : f < 256)
    (hg : g < 256) (hh : h < 256)
    (ha' : a' < 256) (hb' : b' < 256) (hc' : c' < 256) (hd' : d' < 256) (he' : e' < 256) (hf' : f' < 256)
    (hg' : g' < 256) (hh' : h' < 256) :
    w8 a b c d e f g h ||| w8 a' b' c' d' e' f' g' h'
      = w8 (a ||| a') (b ||| b') (c ||| c') (d ||| d') (e ||| e') (f ||| f') (g ||| g') (h ||| h') := by
  unfold w8
  rw [lor_cons _ _ ha ha', lor_cons _ _ hb hb', lor_cons _ _ hc hc', lor_cons _ _ hd hd',
    lor_cons _ _ he he', lor_cons _ _ hf hf', lor_cons _ _ hg hg', lor_cons _ _ hh hh']
  simp

theorem and15 (a : Nat) : a &&& 15 = a % 16 := Nat.and_two_pow_sub_one_eq_mod a 4
theorem and255 (a : Nat) : a &&& 255 = a % 256 := Nat.and_two_pow_sub_one_eq_mod a 8

/-- `parse_8_digits` on any eight bytes: the low nibbles read as decimal digits. -/
theorem parse8_cons (a b c d e f g h : UInt8) (t : Bytes) :
    parse8 (a :: b :: c :: d :: e :: f :: g :: h :: t) =
      a.toNat % 16 * 10000000 + b.toNat % 16 * 1000000 + c.toNat % 16 * 100000 + d.toNat % 16 * 10000 +
        e.toNat % 16 * 1000 + f.toNat % 16 * 100 + g.toNat % 16 * 10 + h.toNat % 16 := by
  have ha := a.toNat_lt; have hb := b.toNat_lt; have hc := c.toNat_lt; have hd := d.toNat_lt
  have he := e.toNat_lt; have hf := f.toNat_lt; have hg := g.toNat_lt; have hh := h.toNat_lt
  have hw : word ((a :: b :: c :: d :: e :: f :: g :: h :: t).take 8)
      = w8 a.toNat b.toNat c.toNat d.toNat e.toNat f.toNat g.toNat h.toNat := by
    simp [word, w8]
  unfold parse8
  simp only [hw]
  generalize a.toNat = a at *; generalize b.toNat = b at *; generalize c.toNat = c at *
  generalize d.toNat = d at *; generalize e.toNat = e at *; generalize f.toNat = f at *
  generalize g.toNat = g at *; generalize h.toNat = h at *
  have m1 : (0x0F000F000F000F00 : Nat) = w8 0 15 0 15 0 15 0 15 := by decide
  have m2 : (0x000F000F000F000F : Nat) = w8 15 0 15 0 15 0 15 0 := by decide
  have m3 : (0x00FF000000FF0000 : Nat) = w8 0 0 255 0 0 0 255 0 := by decide
  have m4 : (0x000000FF000000FF : Nat) = w8 255 0 0 0 255 0 0 0 := by decide
  have m5 : (0x0000FFFF00000000 : Nat) = w8 0 0 0 0 255 255 0 0 := by decide
  have m6 : (0x000000000000FFFF : Nat) = w8 255 255 0 0 0 0 0 0 := by decide
  have m7 : (0xFFFFFFFF : Nat) = w8 255 255 255 255 0 0 0 0 := by decide
  simp only [Nat.shiftRight_eq_div_pow]
  rw [m1, m2, m3, m4, m5, m6]
  rw [land8 ha hb hc hd he hf hg hh (by decide) (by decide) (by decide) (by decide) (by decide) (by decide)
    (by decide) (by decide)]
  rw [land8 ha hb hc hd he hf hg hh (by decide) (by decide) (by decide) (by decide) (by decide) (by decide)
    (by decide) (by decide)]
  simp only [and15, Nat.and_zero]
  have pa : a % 16 < 16 := Nat.mod_lt _ (by decide)
  have pb : b % 16 < 16 := Nat.mod_lt _ (by decide)
  have pc : c % 16 < 16 := Nat.mod_lt _ (by decide)
  have pd : d % 16 < 16 := Nat.mod_lt _ (by decide)
  have pe : e % 16 < 16 := Nat.mod_lt _ (by decide)
  have pf : f % 16 < 16 := Nat.mod_lt _ (by decide)
  have pg : g % 16 < 16 := Nat.mod_lt _ (by decide)
  have ph : h % 16 < 16 := Nat.mod_lt _ (by decide)
  generalize a % 16 = a at *; generalize b % 16 = b at *; generalize c % 16 = c at *
  generalize d % 16 = d at *; generalize e % 16 = e at *; generalize f % 16 = f at *
  generalize g % 16 = g at *; generalize h % 16 = h at *
  have e1 : (w8 0 b 0 d 0 f 0 h / 2 ^ 8 + w8 a 0 c 0 e 0 g 0 * 10 % 2 ^ 64) % 2 ^ 64
      = w8 (10 * a + b) 0 (10 * c + d) 0 (10 * e + f) 0 (10 * g + h) 0 := by
    simp only [w8]; omega
  rw [e1]
  obtain ⟨p, hp⟩ : ∃ p, p = 10 * a + b := ⟨_, rfl⟩
  obtain ⟨q, hq⟩ : ∃ q, q = 10 * c + d := ⟨_, rfl⟩
  obtain ⟨r, hr⟩ : ∃ r, r = 10 * e + f := ⟨_, rfl⟩
  obtain ⟨s, hs⟩ : ∃ s, s = 10 * g + h := ⟨_, rfl⟩
  rw [← hp, ← hq, ← hr, ← hs]
  have hp' : p < 256 := by omega
  have hq' : q < 256 := by omega
  have hr' : r < 256 := by omega
  have hs' : s < 256 := by omega
  have lp : p ≤ 165 := by omega
  have lq : q ≤ 165 := by omega
  have lr : r ≤ 165 := by omega
  have ls : s ≤ 165 := by omega
  have z : (0 : Nat) < 256 := by decide
  rw [land8 hp' z hq' z hr' z hs' z (by decide) (by decide) (by decide) (by decide) (by decide) (by decide)
    (by decide) (by decide)]
  rw [land8 hp' z hq' z hr' z hs' z (by decide) (by decide) (by decide) (by decide) (by decide) (by decide)
    (by decide) (by decide)]
  simp only [and255, Nat.and_zero, Nat.mod_eq_of_lt hp', Nat.mod_eq_of_lt hq',
    Nat.mod_eq_of_lt hr', Nat.mod_eq_of_lt hs']
  obtain ⟨u, hu⟩ : ∃ u, u = 100 * p + q := ⟨_, rfl⟩
  obtain ⟨v, hv⟩ : ∃ v, v = 100 * r + s := ⟨_, rfl⟩
  have lu : u ≤ 16665 := by omega
  have lv : v ≤ 16665 := by omega
  have e2 : (w8 0 0 q 0 0 0 s 0 / 2 ^ 16 + w8 p 0 0 0 r 0 0 0 * 100 % 2 ^ 64) % 2 ^ 64
      = w8 (u % 256) (u / 256) 0 0 (v % 256) (v / 256) 0 0 := by
    simp only [w8]; omega
  rw [e2]
  have u1 : u % 256 < 256 := Nat.mod_lt _ (by decide)
  have u2 : u / 256 < 256 := by omega
  have v1 : v % 256 < 256 := Nat.mod_lt _ (by decide)
  have v2 : v / 256 < 256 := by omega
  rw [land8 u1 u2 z z v1 v2 z z (by decide) (by decide) (by decide) (by decide) (by decide) (by decide)
    (by decide) (by decide)]
  rw [land8 u1 u2 z z v1 v2 z z (by decide) (by decide) (by decide) (by decide) (by decide) (by decide)
    (by decide) (by decide)]
  simp only [and255, Nat.and_zero, Nat.mod_eq_of_lt u1, Nat.mod_eq_of_lt u2,
    Nat.mod_eq_of_lt v1, Nat.mod_eq_of_lt v2]
  rw [show (0xFFFFFFFF : Nat) = 2 ^ 32 - 1 by decide, Nat.and_two_pow_sub_one_eq_mod]
  have e3 : (w8 0 0 0 0 (v % 256) (v / 256) 0 0 / 2 ^ 32 +
      w8 (u % 256) (u / 256) 0 0 0 0 0 0 * 10000 % 2 ^ 64) % 2 ^ 64 % 2 ^ 32 = 10000 * u + v := by
    simp only [w8]; omega
  rw [e3]
  omega

/-- The bytes of a word. -/
theorem w8_bytes {n a b c d e f g h : Nat} (hn : n = w8 a b c d e f g h)
    (ha : a < 256) (hb : b < 256) (hc : c < 256) (hd : d < 256) (he : e < 256) (hf : f < 256)
    (hg : g < 256) (hh : h < 256) :
    n % 256 = a ∧ n / 256 % 256 = b ∧ n / 65536 % 256 = c ∧ n / 16777216 % 256 = d ∧
      n / 4294967296 % 256 = e ∧ n / 1099511627776 % 256 = f ∧ n / 281474976710656 % 256 = g ∧
      n / 72057594037927936 % 256 = h := by
  subst hn
  unfold w8
  exact ⟨by omega, by omega, by omega, by omega, by omega, by omega, by omega, by omega⟩

/-- Adding six to every byte without carries. -/
theorem w8_add6 {a b c d e f g h : Nat} (ha : a < 250) (hb : b < 250) (hc : c < 250) (hd : d < 250)
    (he : e < 250) (hf : f < 250) (hg : g < 250) (hh : h < 250) :
    (0x0606060606060606 + w8 a b c d e f g h) % 2 ^ 64
      = w8 (a + 6) (b + 6) (c + 6) (d + 6) (e + 6) (f + 6) (g + 6) (h + 6) := by
  unfold w8; omega

/-- The eight-digit test on any eight bytes. -/
theorem isEightDigits_cons (a b c d e f g h : UInt8) (t : Bytes) :
    isEightDigits (a :: b :: c :: d :: e :: f :: g :: h :: t) = true ↔
      ∀ x ∈ [a, b, c, d, e, f, g, h], IsDig x := by
  have ha := a.toNat_lt; have hb := b.toNat_lt; have hc := c.toNat_lt; have hd := d.toNat_lt
  have he := e.toNat_lt; have hf := f.toNat_lt; have hg := g.toNat_lt; have hh := h.toNat_lt
  have hw : word ((a :: b :: c :: d :: e :: f :: g :: h :: t).take 8)
      = w8 a.toNat b.toNat c.toNat d.toNat e.toNat f.toNat g.toNat h.toNat := by
    simp [word, w8]
  have hdig : ∀ x : UInt8, IsDig x ↔ 0x30 ≤ x.toNat ∧ x.toNat ≤ 0x39 := by
    intro x; simp [IsDig, UInt8.le_iff_toNat_le]
  simp only [List.forall_mem_cons, List.not_mem_nil, hdig]
  unfold isEightDigits
  simp only [hw, beq_iff_eq]
  generalize a.toNat = a at *; generalize b.toNat = b at *; generalize c.toNat = c at *
  generalize d.toNat = d at *; generalize e.toNat = e at *; generalize f.toNat = f at *
  generalize g.toNat = g at *; generalize h.toNat = h at *
  have m1 : (0xF0F0F0F0F0F0F0F0 : Nat) = w8 240 240 240 240 240 240 240 240 := by decide
  have m2 : (0x3333333333333333 : Nat) = w8 51 51 51 51 51 51 51 51 := by decide
  have hi : ∀ x : Fin 256, x.val &&& 240 = 16 * (x.val / 16) := by decide +kernel
  have hi' : ∀ x, x < 256 → x &&& 240 = 16 * (x / 16) := fun x hx => hi ⟨x, hx⟩
  have ho : ∀ x y : Fin 16, (16 * x.val) ||| y.val = 16 * x.val + y.val := by decide +kernel
  have ho' : ∀ x y, x < 16 → y < 16 → (16 * x) ||| y = 16 * x + y := fun x y hx hy => ho ⟨x, hx⟩ ⟨y, hy⟩
  rw [m1, m2]
  -- the bytes of the sum
  obtain ⟨n, hn⟩ : ∃ n, n = (0x0606060606060606 + w8 a b c d e f g h) % 2 ^ 64 := ⟨_, rfl⟩
  rw [← hn]
  have hnlt : n < 2 ^ 64 := by rw [hn]; exact Nat.mod_lt _ (by decide)
  have hn8 : n = w8 (n % 256) (n / 256 % 256) (n / 65536 % 256) (n / 16777216 % 256) (n / 4294967296 % 256)
      (n / 1099511627776 % 256) (n / 281474976710656 % 256) (n / 72057594037927936 % 256) := by
    unfold w8; omega
  rw [land8 ha hb hc hd he hf hg hh (by decide) (by decide) (by decide) (by decide) (by decide) (by decide)
    (by decide) (by decide)]
  have l : ∀ k, k % 256 < 256 := fun k => Nat.mod_lt _ (by decide)
  have hl : n &&& w8 240 240 240 240 240 240 240 240
      = w8 (n % 256 &&& 240) (n / 256 % 256 &&& 240) (n / 65536 % 256 &&& 240) (n / 16777216 % 256 &&& 240)
        (n / 4294967296 % 256 &&& 240) (n / 1099511627776 % 256 &&& 240) (n / 281474976710656 % 256 &&& 240)
        (n / 72057594037927936 % 256 &&& 240) := by
    conv => lhs; rw [hn8]
    exact land8 (l _) (l _) (l _) (l _) (l _) (l _) (l _) (l _) (by decide) (by decide) (by decide) (by decide)
      (by decide) (by decide) (by decide) (by decide)
  rw [hl]
  rw [hi' _ ha, hi' _ hb, hi' _ hc, hi' _ hd, hi' _ he, hi' _ hf, hi' _ hg, hi' _ hh]
  rw [hi' _ (l _), hi' _ (l _), hi' _ (l _), hi' _ (l _), hi' _ (l _), hi' _ (l _), hi' _ (l _), hi' _ (l _)]
  rw [Nat.shiftRight_eq_div_pow]
  have l16 : ∀ k, k % 256 / 16 < 16 := fun k => by omega
  have e1 : ∀ p q r s t u v w : Nat, w8 (16 * p) (16 * q) (16 * r) (16 * s) (16 * t) (16 * u) (16 * v) (16 * w) / 2 ^ 4
      = w8 p q r s t u v w := by
    intros; simp only [w8]; omega
  rw [e1]
  have g16 : ∀ x, x < 256 → 16 * (x / 16) < 256 := fun x hx => by omega
  have l256 : ∀ k, k % 256 / 16 < 256 := fun k => by omega
  rw [lor8 (g16 _ ha) (g16 _ hb) (g16 _ hc) (g16 _ hd) (g16 _ he) (g16 _ hf) (g16 _ hg) (g16 _ hh)
    (l256 _) (l256 _) (l256 _) (l256 _) (l256 _) (l256 _) (l256 _) (l256 _)]
  have d16 : ∀ x, x < 256 → x / 16 < 16 := fun x hx => by omega
  rw [ho' _ _ (d16 _ ha) (l16 _), ho' _ _ (d16 _ hb) (l16 _), ho' _ _ (d16 _ hc) (l16 _),
    ho' _ _ (d16 _ hd) (l16 _), ho' _ _ (d16 _ he) (l16 _), ho' _ _ (d16 _ hf) (l16 _),
    ho' _ _ (d16 _ hg) (l16 _), ho' _ _ (d16 _ hh) (l16 _)]
  constructor
  · intro h1
    have hb8 : a / 16 = 3 ∧ b / 16 = 3 ∧ c / 16 = 3 ∧ d / 16 = 3 ∧ e / 16 = 3 ∧ f / 16 = 3 ∧ g / 16 = 3 ∧ h / 16 = 3 ∧
        n % 256 / 16 = 3 ∧ n / 256 % 256 / 16 = 3 ∧ n / 65536 % 256 / 16 = 3 ∧ n / 16777216 % 256 / 16 = 3 ∧
        n / 4294967296 % 256 / 16 = 3 ∧ n / 1099511627776 % 256 / 16 = 3 ∧ n / 281474976710656 % 256 / 16 = 3 ∧
        n / 72057594037927936 % 256 / 16 = 3 := by
      have q0 := l16 n; have q1 := l16 (n / 256); have q2 := l16 (n / 65536); have q3 := l16 (n / 16777216)
      have q4 := l16 (n / 4294967296); have q5 := l16 (n / 1099511627776)
      have q6 := l16 (n / 281474976710656); have q7 := l16 (n / 72057594037927936)
      have r0 := d16 a ha; have r1 := d16 b hb; have r2 := d16 c hc; have r3 := d16 d hd
      have r4 := d16 e he; have r5 := d16 f hf; have r6 := d16 g hg; have r7 := d16 h hh
      clear hn8 hn hnlt
      generalize n % 256 / 16 = x0 at *; generalize n / 256 % 256 / 16 = x1 at *
      generalize n / 65536 % 256 / 16 = x2 at *; generalize n / 16777216 % 256 / 16 = x3 at *
      generalize n / 4294967296 % 256 / 16 = x4 at *; generalize n / 1099511627776 % 256 / 16 = x5 at *
      generalize n / 281474976710656 % 256 / 16 = x6 at *; generalize n / 72057594037927936 % 256 / 16 = x7 at *
      generalize a / 16 = y0 at *; generalize b / 16 = y1 at *; generalize c / 16 = y2 at *
      generalize d / 16 = y3 at *; generalize e / 16 = y4 at *; generalize f / 16 = y5 at *
      generalize g / 16 = y6 at *; generalize h / 16 = y7 at *
      have peel : ∀ y x r : Nat, x < 16 → y < 16 → ∀ m, (16 * y + x) + 256 * r = 51 + 256 * m →
          y = 3 ∧ x = 3 ∧ r = m := by intros; omega
      unfold w8 at h1
      obtain ⟨a1, a2, h1⟩ := peel _ _ _ q0 r0 _ h1
      obtain ⟨b1, b2, h1⟩ := peel _ _ _ q1 r1 _ h1
      obtain ⟨c1, c2, h1⟩ := peel _ _ _ q2 r2 _ h1
      obtain ⟨d1, d2, h1⟩ := peel _ _ _ q3 r3 _ h1
      obtain ⟨e1, e2, h1⟩ := peel _ _ _ q4 r4 _ h1
      obtain ⟨f1, f2, h1⟩ := peel _ _ _ q5 r5 _ h1
      obtain ⟨g1, g2, h1⟩ := peel _ _ _ q6 r6 _ h1
      obtain ⟨i1, i2, h1⟩ := peel _ _ _ q7 r7 _ h1
      exact ⟨a1, b1, c1, d1, e1, f1, g1, i1, a2, b2, c2, d2, e2, f2, g2, i2⟩
    clear hn8 hl hnlt h1
    have q9 : ∀ x, x / 16 = 3 → x < 250 := by intro x h; omega
    have q9' : ∀ x, x / 16 = 3 → x + 6 < 256 := by intro x h; omega
    have hb9 := hb8
    obtain ⟨s0, s1, s2, s3, s4, s5, s6, s7, -⟩ := hb9
    obtain ⟨k0, k1, k2, k3, k4, k5, k6, k7⟩ := w8_bytes (hn.trans (w8_add6 (q9 _ s0) (q9 _ s1) (q9 _ s2)
      (q9 _ s3) (q9 _ s4) (q9 _ s5) (q9 _ s6) (q9 _ s7))) (q9' _ s0) (q9' _ s1) (q9' _ s2)
      (q9' _ s3) (q9' _ s4) (q9' _ s5) (q9' _ s6) (q9' _ s7)
    rw [k0, k1, k2, k3, k4, k5, k6, k7] at hb8
    obtain ⟨s0, s1, s2, s3, s4, s5, s6, s7, t0, t1, t2, t3, t4, t5, t6, t7⟩ := hb8
    have q : ∀ x, x / 16 = 3 → (x + 6) / 16 = 3 → 48 ≤ x ∧ x ≤ 57 := by intro x h1 h2; omega
    exact ⟨q _ s0 t0, q _ s1 t1, q _ s2 t2, q _ s3 t3, q _ s4 t4, q _ s5 t5, q _ s6 t6, q _ s7 t7, by simp⟩
  · rintro ⟨h0, h1, h2, h3, h4, h5, h6, h7, -⟩
    clear hn8 hl hnlt
    have q9 : ∀ x, 48 ≤ x ∧ x ≤ 57 → x < 250 := by intro x h; omega
    have q9' : ∀ x, 48 ≤ x ∧ x ≤ 57 → x + 6 < 256 := by intro x h; omega
    obtain ⟨k0, k1, k2, k3, k4, k5, k6, k7⟩ := w8_bytes (hn.trans (w8_add6 (q9 _ h0) (q9 _ h1) (q9 _ h2)
      (q9 _ h3) (q9 _ h4) (q9 _ h5) (q9 _ h6) (q9 _ h7))) (q9' _ h0) (q9' _ h1) (q9' _ h2)
      (q9' _ h3) (q9' _ h4) (q9' _ h5) (q9' _ h6) (q9' _ h7)
    rw [k0, k1, k2, k3, k4, k5, k6, k7]
    have q : ∀ x, 48 ≤ x ∧ x ≤ 57 → 16 * (x / 16) + (x + 6) / 16 = 51 := by intro x hx; omega
    rw [q _ h0, q _ h1, q _ h2, q _ h3, q _ h4, q _ h5, q _ h6, q _ h7]

end Verif
