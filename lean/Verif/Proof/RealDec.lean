import Verif.Proof.RealVal
import Verif.Spec.Typed

/-!
# Reals as decimal fractions
-/

namespace Verif

open Spec

theorem stripTens_spec (n : Nat) : ∀ e : Int, ((stripTens n e).1 : ℚ) * 10 ^ (stripTens n e).2 = (n : ℚ) * 10 ^ e ∧
    ((stripTens n e).1 % 10 ≠ 0 ∨ n = 0 ∧ stripTens n e = (0, 0)) := by
  induction n using Nat.strong_induction_on with
  | _ n ih =>
    intro e
    rw [stripTens]
    split
    · rename_i h
      subst h
      exact ⟨by simp, Or.inr ⟨rfl, rfl⟩⟩
    · rename_i h
      split
      · rename_i h10
        obtain ⟨h1, h2⟩ := ih (n / 10) (by omega) (e + 1)
        refine ⟨?_, ?_⟩
        · rw [h1, zpow_add_one₀ (by norm_num)]
          have : (n : ℚ) = ((n / 10 : Nat) : ℚ) * 10 := by exact_mod_cast (by omega : n = n / 10 * 10)
          rw [this]
          ring
        · rcases h2 with h2 | h2
          · exact Or.inl h2
          · omega
      · rename_i h10
        exact ⟨rfl, Or.inl h10⟩

theorem Dec.of_normal (neg : Bool) (n : Nat) (e : Int) : (Dec.of neg n e).Normal := by
  rcases (stripTens_spec n e).2 with h | ⟨h1, h2⟩
  · exact Or.inl h
  · right
    subst h1
    unfold Dec.of
    rw [h2]
    simp

theorem Dec.of_val (neg : Bool) (n : Nat) (e : Int) : (Dec.of neg n e).val = (if neg then -1 else 1) * ((n : ℚ) * 10 ^ e) := by
  have h := (stripTens_spec n e).1
  unfold Dec.val
  rw [show (Dec.of neg n e).sig = (stripTens n e).1 from rfl, show (Dec.of neg n e).exp = (stripTens n e).2 from rfl, h,
    show (Dec.of neg n e).neg = (neg && n != 0) from rfl]
  cases neg
  · simp
  · by_cases hn : n = 0
    · simp [hn]
    · simp [hn]

theorem pow10_aux {a b : Nat} (ha : a % 10 ≠ 0) {m : Nat} (h : a = b * 10 ^ m) : m = 0 := by
  rcases m with _ | m
  · rfl
  · exfalso
    rw [pow_succ, ← mul_assoc] at h
    omega

theorem pow10_inj {a b : Nat} (ha : a % 10 ≠ 0) (hb : b % 10 ≠ 0) {x y : Int}
    (h : (a : ℚ) * 10 ^ x = (b : ℚ) * 10 ^ y) : a = b ∧ x = y := by
  have key : ∀ {a b : Nat} {x y : Int}, a % 10 ≠ 0 → (a : ℚ) * 10 ^ x = (b : ℚ) * 10 ^ y → x ≤ y → a = b ∧ x = y := by
    intro a b x y ha h hle
    obtain ⟨m, hm⟩ := Int.eq_ofNat_of_zero_le (Int.sub_nonneg.2 hle)
    have hy : y = x + (m : Int) := by omega
    rw [hy, zpow_add₀ (by norm_num)] at h
    have hp : (10 : ℚ) ^ x ≠ 0 := zpow_ne_zero _ (by norm_num)
    have h2 : (a : ℚ) = (b : ℚ) * 10 ^ m := by
      apply mul_right_cancel₀ hp
      rw [h, zpow_natCast]
      ring
    have h3 : a = b * 10 ^ m := by exact_mod_cast h2
    have hm0 := pow10_aux ha h3
    subst hm0
    exact ⟨by simpa using h3, by omega⟩
  rcases le_total x y with hxy | hxy
  · exact key ha h hxy
  · obtain ⟨h1, h2⟩ := key hb h.symm hxy
    exact ⟨h1.symm, h2.symm⟩

/-- Reals in normal form with the same value are the same. -/
theorem Dec.Normal.unique {r s : Dec} (hr : r.Normal) (hs : s.Normal) (h : r.val = s.val) : r = s := by
  have p : ∀ x : Int, (0 : ℚ) < 10 ^ x := fun x => zpow_pos (by norm_num) x
  have hz : ∀ {t : Dec}, t.sig % 10 ≠ 0 → t.val ≠ 0 := by
    intro t ht h0
    have h1 : (t.sig : ℚ) ≠ 0 := by
      intro h2
      have : t.sig = 0 := by exact_mod_cast h2
      omega
    unfold Dec.val at h0
    have h2 := mul_ne_zero h1 (p t.exp).ne'
    cases hn : t.neg
    · rw [hn, if_neg (by decide), one_mul] at h0
      exact h2 h0
    · rw [hn, if_pos rfl] at h0
      exact (mul_ne_zero (by norm_num) h2) h0
  have hz0 : (⟨false, 0, 0⟩ : Dec).val = 0 := by simp [Dec.val]
  rcases hr with hr | rfl
  · rcases hs with hs | rfl
    · have pos : ∀ t : Dec, t.sig % 10 ≠ 0 → (0 : ℚ) < (t.sig : ℚ) * 10 ^ t.exp := by
        intro t ht
        apply mul_pos _ (p _)
        exact_mod_cast (by omega : 0 < t.sig)
      have hr' := pos r hr
      have hs' := pos s hs
      obtain ⟨rn, rs, re⟩ := r
      obtain ⟨sn, ss, se⟩ := s
      dsimp only at *
      unfold Dec.val at h
      dsimp only at h
      have hn : rn = sn := by
        cases rn <;> cases sn <;> simp at h ⊢ <;> linarith
      subst hn
      have h' : (rs : ℚ) * 10 ^ re = (ss : ℚ) * 10 ^ se := by
        cases rn <;> simp at h <;> linarith
      obtain ⟨rfl, rfl⟩ := pow10_inj hr hs h'
      rfl
    · rw [hz0] at h
      exact absurd h (hz hr)
  · rcases hs with hs | rfl
    · rw [hz0] at h
      exact absurd h.symm (hz hs)
    · rfl

theorem Dec.of_unique {r : Dec} {neg : Bool} {n : Nat} {e : Int} (hr : r.Normal)
    (h : r.val = ((if neg then -1 else 1 : Int) : ℚ) * ((n : ℚ) * 10 ^ e)) :
    (RealOut.calc (if neg then -1 else 1) n e).dec = r := by
  have : (RealOut.calc (if neg then -1 else 1) n e).dec = Dec.of neg n e := by
    cases neg <;> rfl
  rw [this]
  apply (Dec.of_normal neg n e).unique hr
  rw [Dec.of_val, h]
  cases neg <;> simp

theorem Cfg.real_dig (cfg : Cfg) (zt dbl : Bool) : 2 ≤ (cfg.real zt dbl).maxDig ∧ (cfg.real zt dbl).maxDig ≤ 19 ∧
    (cfg.real zt dbl).maxDig = tooLong dbl := by
  unfold Cfg.real tooLong
  cases dbl <;> simp

/-- A number with few digits, read as it stands. -/
theorem realUnknown_dec {cfg : RCfg} (hp : cfg.precise = false) (hm : 2 ≤ cfg.maxDig) (hm' : cfg.maxDig ≤ 19) {txt : Bytes}
    {neg : Bool} {i fd : Bytes} {e : Int} (ht : NumText txt neg i fd e) (hT : (i ++ fd).length < cfg.maxDig)
    (he : e.natAbs + (i ++ fd).length < 2 ^ 31) {r : Dec} (hr : r.Normal) (hv : r.val = numVal neg i fd e) {c : Bytes}
    (hc : NumEnd c)
    (hne : c = [] → cfg.checked = true ∧ (cfg.zt = true ∨ ∃ c ∈ txt, c = 0x2E ∨ c = 0x65 ∨ c = 0x45)) :
    ∃ o, realUnknown cfg (txt ++ c) = .ok (o, c) ∧ o.dec = r := by
  have hd := (numText_digits ht).2
  obtain ⟨f, x, hi, hf, hx, rfl⟩ := ht
  obtain ⟨k, s, E, h1, h2, h3, h4, h5⟩ := realUnknown_spec cfg neg i f fd x c e hi hf hx hc (by
      intro h1 h2 h3
      have := (hne h3).1
      simp [RCfg.skipEnd, h2, this] at h1) (by
      intro h1 h2
      have h3 := List.append_eq_nil_iff.1 h2
      have h4 := List.append_eq_nil_iff.1 h3.2
      obtain ⟨-, h5 | ⟨ch, hch, h5⟩⟩ := hne h4.2
      · rw [h1] at h5
        exact absurd h5 (by decide)
      · rw [h3.1, h4.1, List.append_nil, List.append_nil] at hch
        rcases List.mem_append.1 hch with h | h
        · cases neg
          · simp at h
          · obtain rfl : ch = 0x2D := by simpa using h
            revert h5
            decide
        · have h6 := (isInt_digits hi).2 ch h
          rcases h5 with rfl | rfl | rfl <;> revert h6 <;> unfold IsDig <;> decide) hm hm'
  obtain rfl := h2 (by omega)
  have hTl : (i ++ fd).length = i.length + fd.length := List.length_append
  have g1 : k = (i ++ fd).length := by
    cases hse : cfg.skipEnd
    · have := h5 hse
      omega
    · exact h4 hse
  rw [addExp_small cfg _ _ (by omega), Res.ok_bind, finish_default cfg _ _ _ _ _ hp (by omega)] at h1
  refine ⟨_, by simpa only [List.append_assoc] using h1, Dec.of_unique hr ?_⟩
  rw [hv]
  exact (numVal_full neg i fd E hd _ g1 (by omega)).symm

theorem numText_isNumber {txt : Bytes} {neg : Bool} {i fd : Bytes} {e : Int} (h : NumText txt neg i fd e) : IsNumber txt := by
  obtain ⟨f, x, hi, hf, hx, rfl⟩ := h
  exact ⟨if neg then [0x2D] else [], i, f, x, by cases neg <;> simp, hi, fracDigits_isFrac hf, expDenotes_isExp hx, rfl⟩

/-- Only text and positions of a range count. -/
theorem realKnown_congr (cfg : RCfg) {r r' : Range} (h1 : r.text = r'.text) (h2 : r.dec = r'.dec) (h3 : r.exp = r'.exp) (c : Bytes) :
    realKnown cfg r c = realKnown cfg r' c := by
  unfold realKnown splitKnown
  rw [h1, h2, h3]

/-- A number with few digits, read from the range that was found for it. -/
theorem realKnown_dec {cfg : RCfg} (hp : cfg.precise = false) (hm' : cfg.maxDig ≤ 19) {neg : Bool} {i f fd x : Bytes} {e : Int}
    (hi : IsInt i) (hf : FracDigits f fd) (hx : ExpDenotes x e) (hT : (i ++ fd).length < cfg.maxDig)
    (he : e.natAbs + (i ++ fd).length < 2 ^ 31) {r : Dec} (hr : r.Normal) (hv : r.val = numVal neg i fd e) {c : Bytes}
    (hc : NumEnd c) (hne : RRoom cfg c) :
    ∃ o, realKnown cfg (numRange neg i f x) c = .ok o ∧ o.dec = r := by
  obtain ⟨k, s, E, h1, h2, h3, h4⟩ := realKnown_spec cfg neg i f fd x c e hi hf hx hc hne
  obtain rfl := h2 (by omega)
  have hd := (numText_digits (neg := neg) ⟨f, x, hi, hf, hx, rfl⟩).2
  have hTl : (i ++ fd).length = i.length + fd.length := List.length_append
  have hk : k = (i ++ fd).length := by
    rw [h3]
    split
    · rw [if_neg (by omega)]
    · omega
  rw [if_pos (by unfold inInt64; omega), finish_default cfg _ _ _ _ _ hp (by omega)] at h1
  refine ⟨_, h1, Dec.of_unique hr ?_⟩
  rw [hv, ← numVal_full neg i fd E hd k hk (by omega)]
  congr 3
  omega

theorem isFrac_digits {f : Bytes} (h : IsFrac f) : ∃ fd, FracDigits f fd := by
  rcases h with rfl | ⟨ds, h, rfl⟩
  · exact ⟨[], Or.inl ⟨rfl, rfl⟩⟩
  · exact ⟨ds, Or.inr ⟨rfl, h⟩⟩

theorem isExp_denotes {x : Bytes} (h : IsExp x) : ∃ e, ExpDenotes x e := by
  rcases h with rfl | ⟨c, s, ds, hc, hs, hds, rfl⟩
  · exact ⟨0, Or.inl ⟨rfl, rfl⟩⟩
  · rcases hs with rfl | rfl | rfl
    · exact ⟨_, Or.inr ⟨c, ds, hc, hds, Or.inl ⟨rfl, rfl⟩⟩⟩
    · exact ⟨_, Or.inr ⟨c, ds, hc, hds, Or.inr (Or.inl ⟨rfl, rfl⟩)⟩⟩
    · exact ⟨_, Or.inr ⟨c, ds, hc, hds, Or.inr (Or.inr ⟨rfl, rfl⟩)⟩⟩

theorem realUnknown_head {cfg : RCfg} (hck : cfg.checked = true) {c : UInt8} {cs : Bytes} (hc : isNumberStart c = false)
    (q : RealOut × Bytes) : realUnknown cfg (c :: cs) ≠ .ok q := by
  unfold realUnknown
  simp [hc, hck]

/-- Whatever the number, nothing but it is consumed. -/
theorem realUnknown_rest {cfg : RCfg} (hck : cfg.checked = true) (hm : 2 ≤ cfg.maxDig) (hm' : cfg.maxDig ≤ 19) {n c r : Bytes}
    (hn : IsNumber n) (hc : NumEnd c) {o : RealOut} (h : realUnknown cfg (n ++ c) = .ok (o, r)) : r = c := by
  obtain ⟨m, i, f, x, hm0, hi, hf, hx, rfl⟩ := hn
  obtain ⟨fd, hfd⟩ := isFrac_digits hf
  obtain ⟨e, he⟩ := isExp_denotes hx
  obtain ⟨neg, rfl⟩ : ∃ neg : Bool, m = if neg then [chMinus] else [] := by
    rcases hm0 with rfl | rfl
    · exact ⟨false, rfl⟩
    · exact ⟨true, rfl⟩
  have hroom : RRoom cfg c := by
    intro h1 h2
    simp [RCfg.skipEnd, h2, hck] at h1
  simp only [List.append_assoc] at h
  by_cases hend : cfg.zt = false → f ++ (x ++ c) ≠ []
  · obtain ⟨k, s, E, h1, -⟩ := realUnknown_spec cfg neg i f fd x c e hi hfd he hc hroom hend hm hm'
    rw [h1, Res.bind_eq_ok] at h
    obtain ⟨q, -, h⟩ := h
    cases h
    rfl
  · have hend' : cfg.zt = false ∧ f ++ (x ++ c) = [] := by
      by_contra hcon
      exact hend (fun h1 h2 => hcon ⟨h1, h2⟩)
    obtain ⟨hzt, h0⟩ := hend'
    have hcn : c = [] := (List.append_eq_nil_iff.1 (List.append_eq_nil_iff.1 h0).2).2
    have hse : cfg.skipEnd = false := by simp [RCfg.skipEnd, hzt, hck]
    rw [h0, List.append_nil] at h
    subst hcn
    have hnd : NoDig [] := by intro y hy; simp at hy
    have hw : ∀ q, unkWhole cfg i = .ok q → q.2.2.2 = [] := by
      intro q hq
      unfold unkWhole at hq
      have hd := (isInt_digits hi).2
      have e1 := digitsWhile_spec cfg (min i.length cfg.maxDig) 0 i [] (by decide) hd hnd hroom
      rw [List.append_nil, List.append_nil] at e1
      simp only [e1, Res.ok_bind] at hq
      have e2 : took cfg (min i.length cfg.maxDig) i = min i.length cfg.maxDig := by
        unfold took
        rw [if_neg (by simp [hse])]
        omega
      rw [e2, if_pos (by rw [List.length_drop]; omega), Res.bind_eq_ok] at hq
      obtain ⟨b, hb, hq⟩ := hq
      cases hq
      dsimp only
      by_cases hdr : i.drop (min i.length cfg.maxDig) = []
      · rw [hdr, skipDigitsR, if_neg (by simp [hzt])] at hb
        cases hb
      · have := skipDigitsR_spec cfg (i.drop (min i.length cfg.maxDig)) [] (fun y hy => hd y (List.mem_of_mem_drop hy)) hnd hroom
          (fun _ => by rw [List.append_nil]; exact hdr)
        rw [List.append_nil, hb] at this
        exact Res.ok.inj this
    unfold realUnknown at h
    simp only [Res.bind_eq_ok] at h
    obtain ⟨_, -, ⟨sg, b⟩, hv, ⟨a1, a2, a3, a4⟩, hu, ⟨b1, b2, b3, b4⟩, hfr, ⟨p2, p4⟩, hex, q, -, h⟩ := h
    have hb : b = i := by
      cases neg
      · have := validateSignedFirst_digits cfg.base i [] hi hnd
        rw [List.append_nil] at this
        simp only [Bool.false_eq_true, if_false, List.nil_append] at hv
        rw [this] at hv
        cases hv
        rfl
      · have := validateSignedFirst_minus cfg.base i
        simp only [if_true, List.singleton_append] at hv
        rw [this] at hv
        cases hv
        rfl
    subst hb
    have h4 : a4 = [] := hw _ hu
    subst h4
    unfold unkFrac at hfr
    rw [if_pos (by simp [hse])] at hfr
    cases hfr
    unfold unkExp at hex
    rw [if_pos (by simp [hck])] at hex
    cases hex
    cases h
    rfl

end Verif
