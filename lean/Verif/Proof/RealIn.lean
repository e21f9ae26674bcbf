import Mathlib.Tactic.Ring
import Mathlib.Tactic.NormNum
import Verif.Model.RealIn
import Verif.Spec.Real
import Verif.Proof.IntParse
import Verif.Proof.SkipValue
import Verif.Proof.StrCode
import Verif.Proof.RealOut

/-!
# Lemmas on reading reals
-/

namespace Verif

open Spec

/-- Without a terminator, reading digits with no end check needs a byte after them. -/
def RRoom (cfg : RCfg) (c : Bytes) : Prop := cfg.skipEnd = true → cfg.zt = false → c ≠ []

theorem RRoom.append {cfg : RCfg} {c : Bytes} (h : RRoom cfg c) (l : Bytes) : RRoom cfg (l ++ c) := by
  intro h1 h2 h3
  exact h h1 h2 (List.append_eq_nil_iff.1 h3).2

theorem untilNonDigit_spec (zt : Bool) (r : Bytes) (hr : NoDig r) (hz : zt = false → r ≠ []) (ds : Bytes) :
    ∀ v, v < 2 ^ 64 → (∀ c ∈ ds, IsDig c) → untilNonDigit zt v (ds ++ r) = .ok (decFrom v ds % 2 ^ 64, r) := by
  induction ds with
  | nil =>
    intro v hv _
    have hm : decFrom v [] % 2 ^ 64 = v := by simp only [decFrom, List.foldl]; exact Nat.mod_eq_of_lt hv
    rw [hm, List.nil_append]
    cases r with
    | nil =>
      cases zt
      · exact absurd rfl (hz rfl)
      · rfl
    | cons x t =>
      have := hr x rfl
      rw [← isDigit_iff] at this
      rw [untilNonDigit, if_neg (by simpa using this)]
  | cons c cs ih =>
    intro v hv hd
    have hc := hd c (by simp)
    rw [List.cons_append, untilNonDigit, if_pos ((isDigit_iff c).2 hc),
      ih _ (mulAdd64_lt _ _ _) (fun x hx => hd x (by simp [hx])), decFrom_cons]
    congr 2
    apply decFrom_congr
    rw [mulAdd64_eq, parseDigit_dig hc, Nat.mul_comm]

theorem whileNumber_spec (r : Bytes) (hr : NoDig r) (ds : Bytes) : ∀ n v, v < 2 ^ 64 → (∀ c ∈ ds, IsDig c) →
    whileNumber n v (ds ++ r) = (decFrom v (ds.take n) % 2 ^ 64, ds.drop n ++ r) := by
  induction ds with
  | nil =>
    intro n v hv _
    have hm : decFrom v [] % 2 ^ 64 = v := by simp only [decFrom, List.foldl]; exact Nat.mod_eq_of_lt hv
    rw [List.take_nil, List.drop_nil, hm, List.nil_append]
    cases r with
    | nil => rw [whileNumber]
    | cons x t =>
      have := hr x rfl
      rw [← isDigit_iff] at this
      cases n with
      | zero => rw [whileNumber]
      | succ n => rw [whileNumber, if_neg (by simpa using this)]
  | cons c cs ih =>
    intro n v hv hd
    have hc := hd c (by simp)
    cases n with
    | zero =>
      rw [List.cons_append, whileNumber, List.take_zero, List.drop_zero]
      simp only [decFrom, List.foldl]
      rw [Nat.mod_eq_of_lt hv, List.cons_append]
    | succ n =>
      rw [List.cons_append, whileNumber, if_pos ((isDigit_iff c).2 hc),
        ih _ _ (mulAdd64_lt _ _ _) (fun x hx => hd x (by simp [hx])), List.take_succ_cons, List.drop_succ_cons,
        decFrom_cons]
      congr 1
      apply decFrom_congr
      rw [mulAdd64_eq, parseDigit_dig hc, Nat.mul_comm]

theorem untilLast_spec (ds : Bytes) : ∀ v, v < 2 ^ 64 → (∀ c ∈ ds, IsDig c) →
    untilLast v ds = decFrom v ds % 2 ^ 64 := by
  induction ds with
  | nil => intro v hv _; simp only [untilLast, decFrom, List.foldl]; exact (Nat.mod_eq_of_lt hv).symm
  | cons c cs ih =>
    intro v hv hd
    rw [untilLast, ih _ (mulAdd64_lt _ _ _) (fun x hx => hd x (by simp [hx])), decFrom_cons]
    apply decFrom_congr
    rw [mulAdd64_eq, parseDigit_dig (hd c (by simp)), Nat.mul_comm]

/-- Number of the digits `ds` consumed with a window of `n`. -/
def took (cfg : RCfg) (n : Nat) (ds : Bytes) : Nat := if cfg.skipEnd then ds.length else min n ds.length

theorem digitsWhile_spec (cfg : RCfg) (n v : Nat) (ds r : Bytes) (hv : v < 2 ^ 64) (hd : ∀ c ∈ ds, IsDig c)
    (hr : NoDig r) (hz : RRoom cfg r) :
    digitsWhile cfg n v (ds ++ r) =
      .ok (decFrom v (ds.take (took cfg n ds)) % 2 ^ 64, ds.drop (took cfg n ds) ++ r) := by
  unfold digitsWhile took
  split
  · rename_i h
    rw [untilNonDigit_spec cfg.zt r hr (hz h) ds v hv hd, List.take_length, List.drop_length, List.nil_append]
  · rw [whileNumber_spec r hr ds n v hv hd]
    by_cases hn : n ≤ ds.length
    · rw [Nat.min_eq_left hn]
    · rw [Nat.min_eq_right (by omega), List.take_of_length_le (by omega), List.take_length,
        List.drop_eq_nil_of_le (by omega), List.drop_length]

theorem skipDigitsR_spec (cfg : RCfg) (ds r : Bytes) (hd : ∀ c ∈ ds, IsDig c) (hr : NoDig r) (hz : RRoom cfg r)
    (hne : cfg.zt = false → ds ++ r ≠ []) : skipDigitsR cfg (ds ++ r) = .ok r := by
  cases h : ds ++ r with
  | nil =>
    have h1 := List.append_eq_nil_iff.1 h
    rw [skipDigitsR]
    cases hzt : cfg.zt
    · exact absurd h (hne hzt)
    · rw [if_pos rfl, h1.2]
  | cons x t =>
    rw [skipDigitsR, ← h]
    split
    · rename_i hs
      rw [untilNonDigit_spec cfg.zt r hr (hz hs) ds 0 (by decide) hd]
      rfl
    · rw [skipDigits_digits ds r hd hr]

theorem decVal_take_lt {ds : Bytes} (hd : ∀ c ∈ ds, IsDig c) (k : Nat) (hk : k ≤ 19) : decVal (ds.take k) < 2 ^ 64 := by
  have h := decVal_lt (ds := ds.take k) (fun c hc => hd c (List.mem_of_mem_take hc))
  have h2 : 10 ^ (ds.take k).length ≤ 10 ^ 19 := Nat.pow_le_pow_right (by decide) (by simp; omega)
  exact Nat.lt_of_lt_of_le h (Nat.le_trans h2 (by decide))

theorem isInt_take {i : Bytes} (h : IsInt i) (hl : 2 ≤ i.length) (k : Nat) (hk : 1 ≤ k) : IsInt (i.take k) := by
  rcases h with rfl | ⟨⟨hne, hd⟩, hh⟩
  · simp at hl
  · right
    refine ⟨⟨?_, fun c hc => hd c (List.mem_of_mem_take hc)⟩, ?_⟩
    · intro h0
      have := congrArg List.length h0
      rw [List.length_take, List.length_nil] at this
      omega
    · cases i with
      | nil => exact absurd rfl hne
      | cons x t =>
        obtain ⟨m, rfl⟩ : ∃ m, k = m + 1 := ⟨k - 1, by omega⟩
        simpa using hh

theorem isInt_take_pos {i : Bytes} (h : IsInt i) (hl : 2 ≤ i.length) (k : Nat) (hk : 1 ≤ k) :
    0 < decVal (i.take k) := by
  rcases h with rfl | ⟨⟨hne, hd⟩, hh⟩
  · simp at hl
  · rcases Nat.eq_zero_or_pos (decVal (i.take k)) with h0 | h0
    · exfalso
      cases i with
      | nil => exact absurd rfl hne
      | cons x t =>
        obtain ⟨m, rfl⟩ : ∃ m, k = m + 1 := ⟨k - 1, by omega⟩
        rw [List.take_succ_cons, show x :: t.take m = [x] ++ t.take m from rfl, decVal_append] at h0
        have hx := hd x (by simp)
        have hx0 : x ≠ 0x30 := by simpa using hh
        have h1 : (0x30 : UInt8).toNat ≤ x.toNat := hx.1
        have h2 : x.toNat ≠ (0x30 : UInt8).toNat := fun e => hx0 (UInt8.toNat_inj.1 e)
        have h3 : (0x30 : UInt8).toNat = 48 := rfl
        have h4 : 1 ≤ decVal [x] := by simp only [decVal, digVal, List.foldl]; omega
        have h5 : 1 ≤ 10 ^ (t.take m).length := Nat.pow_pos (by decide)
        have h6 : 1 * 1 ≤ decVal [x] * 10 ^ (t.take m).length := Nat.mul_le_mul h4 h5
        omega
    · exact h0

/-! ## Unknown range -/

/-- The state after some of the digits `D` of a number (`w` of them before the point): `k` of them are in the
significand. -/
def Taken (D : Bytes) (w k sig : Nat) (p1 : Int) : Prop :=
  sig = decVal (D.take k) % 2 ^ 64 ∧ p1 = (w : Int) - (k : Int)

theorem unkWhole_spec (cfg : RCfg) (i r : Bytes) (hi : IsInt i) (hr : NoDig r) (hz : RRoom cfg r)
    (he : cfg.zt = false → r ≠ []) (hm : 2 ≤ cfg.maxDig) (hm' : cfg.maxDig ≤ 19) :
    ∃ k s, unkWhole cfg (i ++ r) = .ok (decVal (i.take k) % 2 ^ 64, (i.length : Int) - (k : Int), s, r) ∧
      k = (if cfg.skipEnd then i.length else min i.length cfg.maxDig) ∧
      (cfg.skipEnd = false → cfg.maxDig ≤ i.length → s = true) := by
  have hd := (isInt_digits hi).2
  unfold unkWhole
  dsimp only
  rw [digitsWhile_spec cfg _ 0 i r (by decide) hd hr hz, Res.ok_bind]
  dsimp only
  have hcount : ∀ m, m ≤ i.length → (i ++ r).length - (i.drop m ++ r).length = m := by
    intro m hm; simp; omega
  have h0 : ∀ ds, decFrom 0 ds = decVal ds := fun ds => rfl
  rw [h0]
  by_cases hs : cfg.skipEnd = true
  · have ht : ∀ n, took cfg n i = i.length := fun n => by simp [took, hs]
    rw [ht, hcount _ (Nat.le_refl _), List.take_length, List.drop_length, List.nil_append]
    refine ⟨i.length, (if min (i ++ r).length cfg.maxDig ≤ i.length then true else decide (19 < i.length)), ?_,
      by simp [hs], by intro h; rw [hs] at h; simp at h⟩
    · split
      · have := skipDigitsR_spec cfg [] r (by simp) hr hz (by simpa using he)
        rw [List.nil_append] at this
        rw [this, Res.ok_bind]
        simp
      · simp
  · have hse : cfg.skipEnd = false := by simpa using hs
    have hzt : cfg.zt = false := by
      unfold RCfg.skipEnd at hse; simp at hse; exact hse.1
    have hrne := he hzt
    have hrl : 0 < r.length := List.length_pos_iff.2 hrne
    by_cases hw : i.length < cfg.maxDig
    · have ht : took cfg (min (i ++ r).length cfg.maxDig) i = i.length := by
        simp only [took, hse, Bool.false_eq_true, if_false, List.length_append]; omega
      rw [ht, hcount _ (Nat.le_refl _), List.take_length, List.drop_length, List.nil_append,
        if_neg (by rw [List.length_append]; omega)]
      refine ⟨i.length, decide (19 < i.length), ?_, ?_, by omega⟩
      · simp
      · simp [hse]; omega
    · have hn : min (i ++ r).length cfg.maxDig = cfg.maxDig := by simp; omega
      have ht : took cfg cfg.maxDig i = cfg.maxDig := by
        simp [took, hse]; omega
      rw [hn, ht, hcount _ (by omega), if_pos (Nat.le_refl _),
        skipDigitsR_spec cfg (i.drop cfg.maxDig) r (fun c hc => hd c (List.mem_of_mem_drop hc)) hr hz
          (by simp [hrne]), Res.ok_bind]
      refine ⟨cfg.maxDig, true, ?_, by simp [hse]; omega, fun _ _ => rfl⟩
      rw [if_neg]
      · congr 3
        simp
        omega
      · rw [Nat.mod_eq_of_lt (decVal_take_lt hd _ hm')]
        have := isInt_take_pos hi (by omega) cfg.maxDig (by omega)
        omega

theorem decVal_take_append (i fd : Bytes) (m : Nat) :
    decVal ((i ++ fd).take (i.length + m)) % 2 ^ 64 = decFrom (decVal i % 2 ^ 64) (fd.take m) % 2 ^ 64 := by
  rw [List.take_append, List.take_of_length_le (by omega), Nat.add_sub_cancel_left, decFrom_mod, decVal_append,
    decFrom_eq]

theorem noDot_derefZ (zt : Bool) (c : Bytes) (hz : zt = false → c ≠ []) :
    ∃ y, derefZ zt c = .ok y ∧ (c = [] ∧ y = 0 ∨ ∃ t, c = y :: t) := by
  cases c with
  | nil =>
    cases zt
    · exact absurd rfl (hz rfl)
    · exact ⟨0, rfl, Or.inl ⟨rfl, rfl⟩⟩
  | cons y t => exact ⟨y, rfl, Or.inr ⟨t, rfl⟩⟩

theorem unkFrac_spec (cfg : RCfg) (i f fd c : Bytes) (k : Nat) (s : Bool) (hf : FracDigits f fd)
    (hc : ∀ x, c.head? = some x → ¬ IsDig x ∧ x ≠ chDot) (hz : RRoom cfg c)
    (hk : k = (if cfg.skipEnd then i.length else min i.length cfg.maxDig))
    (hs : cfg.skipEnd = false → cfg.maxDig ≤ i.length → s = true) (hm : 2 ≤ cfg.maxDig) :
    ∃ k' s', unkFrac cfg (i ++ (f ++ c)) (decVal (i.take k) % 2 ^ 64) ((i.length : Int) - (k : Int)) s (f ++ c) =
        .ok (decVal ((i ++ fd).take k') % 2 ^ 64, (i.length : Int) - (k' : Int), s', c) ∧
      k' ≤ (i ++ fd).length ∧ (cfg.skipEnd = true → k' = (i ++ fd).length) ∧
      (cfg.skipEnd = false → k' ≤ cfg.maxDig ∧ (k' = (i ++ fd).length ∨ (s' = true ∧ cfg.maxDig - 1 ≤ k'))) := by
  have hnd : NoDig c := fun x hx => (hc x hx).1
  have hkl : k ≤ i.length := by rw [hk]; split <;> omega
  rcases hf with ⟨rfl, rfl⟩ | ⟨rfl, hfd⟩
  · simp only [List.nil_append, List.append_nil]
    have hres : unkFrac cfg (i ++ c) (decVal (i.take k) % 2 ^ 64) ((i.length : Int) - (k : Int)) s c =
        .ok (decVal (i.take k) % 2 ^ 64, (i.length : Int) - (k : Int), s, c) := by
      unfold unkFrac
      split
      · rfl
      · rename_i h
        obtain ⟨y, hy, hy'⟩ := noDot_derefZ cfg.zt c (by
          intro hzt hcn
          subst hcn
          cases hse : cfg.skipEnd
          · simp [hse] at h
          · exact hz hse hzt rfl)
        rw [hy, Res.ok_bind, if_neg]
        rcases hy' with ⟨_, rfl⟩ | ⟨t, rfl⟩
        · decide
        · exact (hc y rfl).2
    refine ⟨k, s, hres, hkl, ?_, ?_⟩
    · intro h; rw [hk, if_pos h]
    · intro h
      rw [h] at hk
      simp only [Bool.false_eq_true, if_false] at hk
      refine ⟨by omega, ?_⟩
      by_cases hw : cfg.maxDig ≤ i.length
      · exact Or.inr ⟨hs h hw, by omega⟩
      · exact Or.inl (by omega)
  · have hdl : 0 < fd.length := List.length_pos_iff.2 hfd.1
    have hne : fd ++ c ≠ [] := by simp [hfd.1]
    have hstep : unkFrac cfg (i ++ (chDot :: fd ++ c)) (decVal (i.take k) % 2 ^ 64) ((i.length : Int) - (k : Int)) s
        (chDot :: fd ++ c) = unkFracDigits cfg (i ++ (chDot :: fd ++ c)) (decVal (i.take k) % 2 ^ 64)
          ((i.length : Int) - (k : Int)) s (fd ++ c) := by
      unfold unkFrac
      rw [if_neg (by simp)]
      simp [derefZ]
    rw [hstep]
    unfold unkFracDigits
    have hTl : (i ++ fd).length = i.length + fd.length := List.length_append
    by_cases hp : (i.length : Int) - (k : Int) ≠ 0
    · rw [if_pos hp, if_neg (by simp [hne]), skipDigitsR_spec cfg fd c hfd.2 hnd hz (fun _ => hne), Res.ok_bind]
      have hse : cfg.skipEnd = false := by
        cases h : cfg.skipEnd
        · rfl
        · rw [h] at hk; simp at hk; omega
      rw [hse] at hk
      simp only [Bool.false_eq_true, if_false] at hk
      refine ⟨k, s, ?_, by omega, by rw [hse]; simp, fun _ => ⟨by omega, Or.inr ⟨hs hse (by omega), by omega⟩⟩⟩
      rw [List.take_append, show k - i.length = 0 by omega, List.take_zero, List.append_nil]
    · rw [if_neg hp]
      have hki : k = i.length := by omega
      subst hki
      simp only [List.take_length]
      set n : Int := min ((fd ++ c).length : Int)
        ((cfg.maxDig : Int) - (((i ++ (chDot :: fd ++ c)).length : Int) - ((fd ++ c).length : Int))) with hn
      have hn' : n = min ((fd.length : Int) + c.length) ((cfg.maxDig : Int) - (i.length + 1)) := by
        rw [hn]; simp; omega
      rw [digitsWhile_spec cfg n.toNat _ fd c (Nat.mod_lt _ (by decide)) hfd.2 hnd hz, Res.ok_bind]
      dsimp only
      set m := took cfg n.toNat fd with hmdef
      have hml : m ≤ fd.length := by rw [hmdef]; unfold took; split <;> omega
      have hcount : (fd ++ c).length - (fd.drop m ++ c).length = m := by simp; omega
      rw [hcount, ← decVal_take_append]
      have hp1 : (i.length : Int) - (i.length : Int) - (m : Int) = (i.length : Int) - ((i.length + m : Nat) : Int) := by
        omega
      rw [hp1]
      have hskip : (fd.drop m ++ c ≠ []) → skipDigitsR cfg (fd.drop m ++ c) = .ok c := fun h =>
        skipDigitsR_spec cfg (fd.drop m) c (fun x hx => hfd.2 x (List.mem_of_mem_drop hx)) hnd hz (fun _ => h)
      by_cases hfull : m = fd.length
      · have hdrop : fd.drop m ++ c = c := by rw [hfull, List.drop_length, List.nil_append]
        refine ⟨i.length + m, s, ?_, by omega, fun _ => by omega, fun h => ⟨?_, Or.inl (by omega)⟩⟩
        · split
          · rename_i hb
            rw [hskip hb.2, Res.ok_bind, hdrop]
            simp
          · rw [hdrop]
        · rw [h] at hk
          simp only [Bool.false_eq_true, if_false] at hk
          rw [hmdef] at hfull
          simp only [took, h, Bool.false_eq_true, if_false] at hfull
          omega
      · have hse : cfg.skipEnd = false := by
          cases h : cfg.skipEnd
          · rfl
          · exfalso; apply hfull; rw [hmdef]; simp [took, h]
        have hmn : m = n.toNat := by
          rw [hmdef] at hfull ⊢
          simp only [took, hse, Bool.false_eq_true, if_false] at hfull ⊢
          omega
        rw [hse] at hk
        simp only [Bool.false_eq_true, if_false] at hk
        have hlt : m < fd.length := by omega
        have hnn : n = (cfg.maxDig : Int) - (i.length + 1) := by omega
        have hne2 : fd.drop m ++ c ≠ [] := by
          intro h
          have := congrArg List.length h
          simp at this
          omega
        rw [if_pos ⟨by omega, hne2⟩, hskip hne2, Res.ok_bind]
        refine ⟨i.length + m, true, ?_, by omega, by rw [hse]; simp, fun _ => ⟨by omega, Or.inr ⟨rfl, by omega⟩⟩⟩
        have : decide (c.length < (fd.drop m ++ c).length) = true := by simp; omega
        rw [this, Bool.or_true]

theorem or20_e {c : UInt8} (h : c = 0x65 ∨ c = 0x45) : c ||| 0x20 = chLe := by
  rcases h with rfl | rfl <;> decide

theorem or20_ne {c : UInt8} (h : c ≠ chLe ∧ c ≠ chUe) : c ||| 0x20 ≠ chLe := by
  revert h
  exact forall_uint8 (P := fun c => (c ≠ chLe ∧ c ≠ chUe) → c ||| 0x20 ≠ chLe) (by decide +kernel) c

/-- The exponent the code works with: the digits modulo 2^64, as a signed 64 bit number. -/
theorem unkExp_spec (cfg : RCfg) (x c : Bytes) (e : Int) (hx : ExpDenotes x e) (hc : NumEnd c) (hz : RRoom cfg c) :
    ∃ E, unkExp cfg (x ++ c) = .ok (E, c) ∧ (e.natAbs < 2 ^ 63 → E = e) := by
  have hnd : NoDig c := fun y hy => (hc y hy).1
  rcases hx with ⟨rfl, rfl⟩ | ⟨y, ds, hy, hds, hxs⟩
  · refine ⟨0, ?_, fun _ => rfl⟩
    rw [List.nil_append]
    unfold unkExp
    split
    · rfl
    · rename_i h
      obtain ⟨y, hy, hy'⟩ := noDot_derefZ cfg.zt c (by
        intro hzt hcn
        subst hcn
        have : cfg.checked = false := by cases hck : cfg.checked <;> simp [hck] at h ⊢
        exact hz (by simp [RCfg.skipEnd, this]) hzt rfl)
      rw [hy, Res.ok_bind, if_neg]
      rcases hy' with ⟨_, rfl⟩ | ⟨t, rfl⟩
      · decide
      · exact or20_ne (hc y rfl).2.2
  · obtain ⟨d, t, rfl, hd⟩ := isDigits_head hds
    have hdd := (isDigit_iff d).2 hd
    have hdn := dig_ne hd
    have hdig : digitsWhile cfg (d :: t ++ c).length 0 (d :: t ++ c) = .ok (decVal (d :: t) % 2 ^ 64, c) := by
      rw [digitsWhile_spec cfg _ 0 (d :: t) c (by decide) hds.2 hnd hz]
      have : took cfg (d :: t ++ c).length (d :: t) = (d :: t).length := by unfold took; simp
      rw [this, List.take_length, List.drop_length, List.nil_append]
      rfl
    have hw : ∀ e', assertWeak cfg.checked true e' = .ok () := by intro e'; cases cfg.checked <;> rfl
    have key : ∀ sg b, unkExpSign cfg b = .ok (sg, d :: t ++ c) →
        unkExp cfg (y :: b) = .ok (toSigned 64 (decVal (d :: t) % 2 ^ 64) sg, c) := by
      intro sg b hb
      unfold unkExp
      rw [if_neg (by simp)]
      simp only [derefZ, Res.ok_bind, List.tail_cons]
      rw [if_pos (or20_e hy), hb, Res.ok_bind]
      dsimp only
      rw [show (!(d :: t ++ c).isEmpty) = true by simp, hw, Res.ok_bind, hdig, Res.ok_bind]
    have val : ∀ n : Nat, n < 2 ^ 63 → n % 2 ^ 64 = n := by intro n hn; omega
    rcases hxs with ⟨rfl, rfl⟩ | ⟨rfl, rfl⟩ | ⟨rfl, rfl⟩
    · refine ⟨_, key 1 (d :: t ++ c) ?_, ?_⟩
      · unfold unkExpSign
        rw [show (cfg.zt || !(d :: t ++ c).isEmpty) = true by simp, hw, Res.ok_bind]
        simp only [List.cons_append, derefZ, Res.ok_bind, hdn.1, hdn.2.1, if_false]
        rw [hdd, hw, Res.ok_bind]
      · intro h
        rw [val _ (by simpa using h)]
        exact toSigned_pos (by simp) (by simpa using h)
    · refine ⟨_, key 1 (0x2B :: (d :: t ++ c)) ?_, ?_⟩
      · unfold unkExpSign
        rw [show (cfg.zt || !(0x2B :: (d :: t ++ c)).isEmpty) = true by simp, hw, Res.ok_bind]
        simp only [derefZ, Res.ok_bind, if_true, List.tail_cons, List.cons_append]
        rw [hdd, hw, Res.ok_bind]
      · intro h
        rw [val _ (by simpa using h)]
        exact toSigned_pos (by simp) (by simpa using h)
    · refine ⟨_, key (-1) (0x2D :: (d :: t ++ c)) ?_, ?_⟩
      · unfold unkExpSign
        rw [show (cfg.zt || !(0x2D :: (d :: t ++ c)).isEmpty) = true by simp, hw, Res.ok_bind]
        simp only [derefZ, Res.ok_bind, List.tail_cons, List.cons_append]
        rw [if_neg (by decide), if_pos trivial, hdd, hw, Res.ok_bind]
      · intro h
        have h' : decVal (d :: t) < 2 ^ 63 := by simpa using h
        rw [val _ h']
        exact toSigned_neg (by simp) (Nat.le_of_lt h')

theorem expDenotes_isExp {x : Bytes} {e : Int} (h : ExpDenotes x e) : IsExp x := by
  rcases h with ⟨rfl, _⟩ | ⟨c, ds, hc, hds, h⟩
  · exact Or.inl rfl
  · right
    rcases h with ⟨rfl, _⟩ | ⟨rfl, _⟩ | ⟨rfl, _⟩
    · exact ⟨c, [], ds, hc, Or.inl rfl, hds, rfl⟩
    · exact ⟨c, [0x2B], ds, hc, Or.inr (Or.inl rfl), hds, rfl⟩
    · exact ⟨c, [0x2D], ds, hc, Or.inr (Or.inr rfl), hds, rfl⟩

theorem fracDigits_isFrac {f fd : Bytes} (h : FracDigits f fd) : IsFrac f := by
  rcases h with ⟨rfl, _⟩ | ⟨rfl, h⟩
  · exact Or.inl rfl
  · exact Or.inr ⟨fd, h, rfl⟩

/-- Everything `parse_real_unknown` does on a JSON number. -/
theorem realUnknown_spec (cfg : RCfg) (neg : Bool) (i f fd x c : Bytes) (e : Int) (hi : IsInt i)
    (hf : FracDigits f fd) (hx : ExpDenotes x e) (hc : NumEnd c) (hz : RRoom cfg c)
    (hend : cfg.zt = false → f ++ (x ++ c) ≠ []) (hm : 2 ≤ cfg.maxDig) (hm' : cfg.maxDig ≤ 19) :
    ∃ (k : Nat) (s : Bool) (E : Int), realUnknown cfg ((if neg then [chMinus] else []) ++ (i ++ (f ++ (x ++ c)))) =
        (addExp cfg ((i.length : Int) - (k : Int)) E >>= fun q =>
          .ok (finish cfg s ((if neg then [chMinus] else []) ++ (i ++ (f ++ (x ++ c)))) (if neg then -1 else 1)
            (decVal ((i ++ fd).take k) % 2 ^ 64) q, c)) ∧
      (e.natAbs < 2 ^ 63 → E = e) ∧ k ≤ (i ++ fd).length ∧ (cfg.skipEnd = true → k = (i ++ fd).length) ∧
      (cfg.skipEnd = false → k ≤ cfg.maxDig ∧ (k = (i ++ fd).length ∨ (s = true ∧ cfg.maxDig - 1 ≤ k))) := by
  have hxe := expDenotes_isExp hx
  have hh := IsExp.head hxe hc
  have hh2 := IsFrac.head (fracDigits_isFrac hf) hxe hc
  obtain ⟨k, s, h1, hk, hs⟩ := unkWhole_spec cfg i (f ++ (x ++ c)) hi hh2 ((hz.append x).append f) hend hm hm'
  obtain ⟨k', s', h2, g1, g2, g3⟩ := unkFrac_spec cfg i f fd (x ++ c) k s hf hh (hz.append x) hk hs hm
  obtain ⟨E, h3, hE⟩ := unkExp_spec cfg x c e hx hc hz
  refine ⟨k', s', E, ?_, hE, g1, g2, g3⟩
  obtain ⟨d, t, rfl, hd⟩ := isDigits_head (isInt_digits hi)
  have hdd := (isDigit_iff d).2 hd
  have hw : ∀ e', assertWeak cfg.checked true e' = .ok () := by intro e'; cases cfg.checked <;> rfl
  unfold realUnknown
  cases neg
  · have hv := validateSignedFirst_digits cfg.base (d :: t) (f ++ (x ++ c)) hi hh2
    simp only [Bool.false_eq_true, if_false, List.nil_append]
    change (assertWeak cfg.checked (isNumberStart d) Err.invalidNumberStart >>= _) = _
    rw [show isNumberStart d = true by simp [isNumberStart, hdd], hw, Res.ok_bind, hv, Res.ok_bind]
    dsimp only
    rw [h1, Res.ok_bind]
    dsimp only
    rw [h2, Res.ok_bind]
    dsimp only
    rw [h3, Res.ok_bind]
  · have hv := validateSignedFirst_minus cfg.base (d :: t ++ (f ++ (x ++ c)))
    simp only [if_true, List.singleton_append]
    rw [show isNumberStart chMinus = true by decide, hw, Res.ok_bind, hv, Res.ok_bind]
    dsimp only
    rw [h1, Res.ok_bind]
    dsimp only
    rw [h2, Res.ok_bind]
    dsimp only
    rw [h3, Res.ok_bind]

/-! ## Known range -/

/-- The range `skip_number` leaves for a number made of these parts. -/
def numRange (neg : Bool) (i f x : Bytes) : Range :=
  { text := (if neg then [chMinus] else []) ++ (i ++ (f ++ x))
    dec := if f = [] then none else some ((if neg then 1 else 0) + i.length)
    exp := if x = [] then none else some ((if neg then 1 else 0) + i.length + f.length) }

theorem skipFrac_flag (cfg : Cfg) (f c : Bytes) (hf : IsFrac f)
    (hc : ∀ x, c.head? = some x → ¬ IsDig x ∧ x ≠ chDot) (hr : Room cfg c) :
    skipFrac cfg (f ++ c) = .ok (c, !f.isEmpty) := by
  rcases hf with rfl | ⟨ds, hds, rfl⟩
  · cases c with
    | nil =>
      have : cfg.checked = true := by
        cases h : cfg.checked
        · exact absurd rfl (hr h)
        · rfl
      simp [skipFrac, this]
    | cons x xs => simp [skipFrac, (hc x rfl).2]
  · simp only [List.cons_append, skipFrac, if_true]
    rw [skipDigitsIf_digits cfg ds c hds.2 (fun x hx => (hc x hx).1) hr]
    rfl

theorem skipExp_flag (cfg : Cfg) (e c : Bytes) (he : IsExp e) (hc : NumEnd c) (hr : Room cfg c) :
    skipExp cfg (e ++ c) = .ok (c, !e.isEmpty) := by
  rcases he with rfl | ⟨x, s, ds, hx, hs, hds, rfl⟩
  · cases c with
    | nil => rfl
    | cons y ys =>
      have := hc y rfl
      simp [skipExp, this.2.2]
  · obtain ⟨d, t, rfl, hd⟩ := isDigits_head hds
    have hdig := (isDigit_iff d).2 hd
    have hdn := dig_ne hd
    have key : skipDigitsIf cfg (d :: (t ++ c)) = .ok c := by
      have := skipDigitsIf_digits cfg (d :: t) c hds.2 (fun x hx => (hc x hx).1) hr
      simpa using this
    rcases hs with rfl | rfl | rfl
    · cases hch : cfg.checked <;>
        simp [skipExp, hx, hdig, hdn, key, hch]
    · cases hch : cfg.checked <;>
        simp [skipExp, hx, hdig, key, hch]
    · cases hch : cfg.checked <;>
        simp [skipExp, hx, hdig, key, hch]

theorem skipNumber_range (cfg : Cfg) (neg : Bool) (i f x c : Bytes) (hi : IsInt i) (hf : IsFrac f) (hx : IsExp x)
    (hc : NumEnd c) (hr : Room cfg c) :
    skipNumber cfg ((numRange neg i f x).text ++ c) = .ok (numRange neg i f x, c) := by
  have hid := isInt_digits hi
  obtain ⟨d, t, rfl, hd⟩ := isDigits_head hid
  have hdn := dig_ne hd
  have k₁ : skipDigitsIf cfg (d :: t ++ (f ++ (x ++ c))) = .ok (f ++ (x ++ c)) :=
    skipDigitsIf_digits cfg (d :: t) (f ++ (x ++ c)) hid.2 (IsFrac.head hf hx hc) ((hr.append x).append f)
  have k₂ := skipFrac_flag cfg f (x ++ c) hf (IsExp.head hx hc) (hr.append x)
  have k₃ := skipExp_flag cfg x c hx hc hr
  have hz : assertWeak cfg.checked true Err.unexpectedEndOfData = .ok () := by
    cases cfg.checked <;> rfl
  have hfl : ∀ (l : Bytes) (n : Nat), (if (!l.isEmpty) = true then some n else none) = if l = [] then none else some n := by
    intro l n; cases l <;> rfl
  unfold skipNumber numRange
  cases neg
  · simp only [Bool.false_eq_true, if_false, List.nil_append, List.append_assoc]
    rw [show (!(d :: t ++ (f ++ (x ++ c))).isEmpty) = true by simp, hz, Res.ok_bind]
    rw [show deref (d :: t ++ (f ++ (x ++ c))) = .ok d from rfl, Res.ok_bind]
    simp only [hdn.2.1, if_false]
    rw [k₁, Res.ok_bind, k₂, Res.ok_bind, k₃, Res.ok_bind]
    simp only [hfl]
    have e1 : (d :: t ++ (f ++ (x ++ c))).length - c.length = (d :: t ++ (f ++ x)).length := by simp; omega
    have e2 : (d :: t ++ (f ++ (x ++ c))).length - (f ++ (x ++ c)).length = 0 + (d :: t).length := by simp; omega
    have e3 : (d :: t ++ (f ++ (x ++ c))).length - (x ++ c).length = 0 + (d :: t).length + f.length := by
      simp; omega
    rw [e1, e2, e3, show d :: t ++ (f ++ (x ++ c)) = (d :: t ++ (f ++ x)) ++ c by simp, List.take_left]
  · simp only [if_true, List.append_assoc, List.cons_append, List.nil_append]
    rw [show (!(chMinus :: d :: (t ++ (f ++ (x ++ c)))).isEmpty) = true by simp, hz, Res.ok_bind]
    rw [show deref (chMinus :: d :: (t ++ (f ++ (x ++ c)))) = .ok chMinus from rfl, Res.ok_bind]
    simp only [if_true, List.tail_cons]
    rw [← List.cons_append, k₁, Res.ok_bind, k₂, Res.ok_bind, k₃, Res.ok_bind]
    simp only [hfl]
    have e1 : (chMinus :: (d :: t ++ (f ++ (x ++ c)))).length - c.length = (chMinus :: (d :: t ++ (f ++ x))).length := by
      simp; omega
    have e2 : (chMinus :: (d :: t ++ (f ++ (x ++ c)))).length - (f ++ (x ++ c)).length = 1 + (d :: t).length := by
      simp; omega
    have e3 : (chMinus :: (d :: t ++ (f ++ (x ++ c)))).length - (x ++ c).length = 1 + (d :: t).length + f.length := by
      simp; omega
    rw [e1, e2, e3, show chMinus :: (d :: t ++ (f ++ (x ++ c))) = (chMinus :: (d :: t ++ (f ++ x))) ++ c by simp,
      List.take_left]
    rfl

theorem splitKnown_range (neg : Bool) (i f x c : Bytes) :
    splitKnown (numRange neg i f x) c =
      { whole := (if neg then [chMinus] else []) ++ i
        wholeBuf := (if neg then [chMinus] else []) ++ (i ++ (f ++ (x ++ c)))
        fract := if f = [] then none else some (f.tail, f.tail ++ (x ++ c))
        exp := if x = [] then none else some (x.tail, x.tail ++ c) } := by
  have aux : ∀ (p : Bytes) (n : Nat) (q : Bytes), n = p.length → (p ++ q).take n = p := by
    intro p n q h; subst h; exact List.take_left
  have auxd : ∀ (p : Bytes) (n : Nat) (q : Bytes), n = p.length → (p ++ q).drop n = q := by
    intro p n q h; subst h; exact List.drop_left
  have auxd1 : ∀ (p : Bytes) (n : Nat) (q : Bytes), n = p.length → q ≠ [] → (p ++ q).drop (n + 1) = q.tail := by
    intro p n q h hq; subst h
    cases q with
    | nil => exact absurd rfl hq
    | cons y t => rw [show p.length + 1 = (p ++ [y]).length by simp, show p ++ y :: t = (p ++ [y]) ++ t by simp,
        List.drop_left]; rfl
  set m : Bytes := if neg then [chMinus] else [] with hm
  have hml : (if neg then 1 else 0) = m.length := by rw [hm]; cases neg <;> rfl
  unfold splitKnown numRange
  rw [← hm, hml]
  have hl : m ++ (i ++ (f ++ x)) = (m ++ i) ++ (f ++ x) := by simp
  have hl2 : m ++ (i ++ (f ++ x)) = (m ++ i ++ f) ++ x := by simp
  by_cases hf : f = [] <;> by_cases hx : x = []
  · subst hf; subst hx
    simp only [if_true, List.append_nil, List.nil_append, Option.map_none]
    rw [List.take_length]
    simp
  · subst hf
    simp only [if_true, hx, if_false, Option.map_none, Option.map_some, List.nil_append, List.length_nil, Nat.add_zero]
    rw [show m ++ (i ++ x) = (m ++ i) ++ x by simp, aux (m ++ i) _ x (by simp),
      auxd1 (m ++ i) _ x (by simp) hx]
    simp
  · subst hx
    simp only [if_true, hf, if_false, Option.map_none, Option.map_some, List.append_nil, List.nil_append]
    rw [show m ++ (i ++ f) = (m ++ i) ++ f by simp, aux (m ++ i) _ f (by simp), List.take_length,
      auxd1 (m ++ i) _ f (by simp) hf]
    simp
  · simp only [hx, hf, if_false, Option.map_some]
    have h4 : (m ++ i ++ (f ++ x)).drop (m.length + i.length + 1) = f.tail ++ x := by
      rw [auxd1 (m ++ i) _ (f ++ x) (by simp) (by simp [hf])]
      cases f with
      | nil => exact absurd rfl hf
      | cons y t => rfl
    rw [hl, aux (m ++ i) _ (f ++ x) (by simp), h4, ← hl, hl2, aux (m ++ i ++ f) _ x (by simp; omega),
      auxd1 (m ++ i ++ f) _ x (by simp; omega) hx, auxd1 (m ++ i) _ f (by simp) hf]
    simp

theorem knownExp_spec (cfg : RCfg) (x c : Bytes) (e : Int) (hx : ExpDenotes x e) (hc : NumEnd c) :
    ∃ E, knownExp cfg (if x = [] then none else some (x.tail, x.tail ++ c)) = .ok E ∧ (e.natAbs < 2 ^ 63 → E = e) := by
  have hnd : NoDig c := fun y hy => (hc y hy).1
  rcases hx with ⟨rfl, rfl⟩ | ⟨y, ds, hy, hds, hxs⟩
  · exact ⟨0, rfl, fun _ => rfl⟩
  · obtain ⟨d, t, rfl, hd⟩ := isDigits_head hds
    have hdn := dig_ne hd
    have hw : ∀ e', assertWeak cfg.checked true e' = .ok () := by intro e'; cases cfg.checked <;> rfl
    have hdig : (if cfg.zt then (untilNonDigit true 0 (d :: t ++ c) >>= fun r => .ok r.1)
        else .ok (whileNumber (d :: t).length 0 (d :: t)).1 : Res Nat) = .ok (decVal (d :: t) % 2 ^ 64) := by
      split
      · rw [untilNonDigit_spec true c hnd (by simp) (d :: t) 0 (by decide) hds.2]
        rfl
      · have := whileNumber_spec [] (by intro x hx; simp at hx) (d :: t) (d :: t).length 0 (by decide) hds.2
        rw [List.append_nil, List.take_length] at this
        rw [this]
        rfl
    have val : ∀ n : Nat, n < 2 ^ 63 → n % 2 ^ 64 = n := by intro n hn; omega
    rcases hxs with ⟨rfl, rfl⟩ | ⟨rfl, rfl⟩ | ⟨rfl, rfl⟩
    · refine ⟨toSigned 64 (decVal (d :: t) % 2 ^ 64) 1, ?_, ?_⟩
      · rw [if_neg (by simp)]
        simp only [List.tail_cons, knownExp, hdn.1, hdn.2.1, if_false, Res.ok_bind]
        rw [hdig]
        rfl
      · intro h
        rw [val _ (by simpa using h)]
        exact toSigned_pos (by simp) (by simpa using h)
    · refine ⟨toSigned 64 (decVal (d :: t) % 2 ^ 64) 1, ?_, ?_⟩
      · rw [if_neg (by simp)]
        simp only [List.tail_cons, knownExp, List.cons_append]
        rw [if_neg (by decide), if_pos trivial, Res.ok_bind]
        dsimp only
        rw [← List.cons_append, hdig]
        rfl
      · intro h
        rw [val _ (by simpa using h)]
        exact toSigned_pos (by simp) (by simpa using h)
    · refine ⟨toSigned 64 (decVal (d :: t) % 2 ^ 64) (-1), ?_, ?_⟩
      · rw [if_neg (by simp)]
        simp only [List.tail_cons, knownExp, List.cons_append, if_true]
        rw [show (!(d :: t).isEmpty) = true by simp, hw, Res.ok_bind, Res.ok_bind]
        dsimp only
        rw [← List.cons_append, hdig]
        rfl
      · intro h
        have h' : decVal (d :: t) < 2 ^ 63 := by simpa using h
        rw [val _ h']
        exact toSigned_neg (by simp) (Nat.le_of_lt h')

theorem digitsKnown_spec (cfg : RCfg) (v k : Nat) (ds r : Bytes) (hv : v < 2 ^ 64) (hd : ∀ c ∈ ds, IsDig c)
    (hr : NoDig r) (hz : RRoom cfg r) :
    digitsKnown cfg v (ds.take k) (ds ++ r) = .ok (decFrom v (ds.take (if cfg.skipEnd then ds.length else k)) % 2 ^ 64) := by
  unfold digitsKnown
  split
  · rename_i h
    rw [untilNonDigit_spec cfg.zt r hr (hz h) ds v hv hd, List.take_length]
    rfl
  · rw [untilLast_spec _ v hv (fun x hx => hd x (List.mem_of_mem_take hx))]

theorem knownDigits_spec (cfg : RCfg) (i f fd x c text : Bytes) (sign e : Int) (s₀ : Bool) (hi : IsInt i)
    (hf : FracDigits f fd) (hx : ExpDenotes x e) (hc : NumEnd c) (hz : RRoom cfg c)
    (hs : (i ++ fd).length ≤ 19 ∨ s₀ = true) :
    ∃ (k : Nat) (s : Bool) (E : Int), knownDigits cfg s₀ text sign i (i ++ (f ++ (x ++ c)))
        (if f = [] then none else some (f.tail, f.tail ++ (x ++ c)))
        (if x = [] then none else some (x.tail, x.tail ++ c)) =
        (if inInt64 ((i.length : Int) - (min (i ++ fd).length cfg.maxDig : Nat) + E) then
          .ok (finish cfg s text sign
            (decVal ((i ++ fd).take k) % 2 ^ 64) ((i.length : Int) - (min (i ++ fd).length cfg.maxDig : Nat) + E))
          else .ub) ∧
      (e.natAbs < 2 ^ 63 → E = e) ∧
      k = (if cfg.skipEnd then (if cfg.maxDig < i.length then i.length else (i ++ fd).length)
        else min (i ++ fd).length cfg.maxDig) ∧
      ((i ++ fd).length ≤ cfg.maxDig ∨ s = true ∨ (cfg.maxDig < i.length ∧ (i ++ fd).length ≤ 19)) := by
  have hxe := expDenotes_isExp hx
  have hh := IsExp.head hxe hc
  have hh2 := IsFrac.head (fracDigits_isFrac hf) hxe hc
  have hid := isInt_digits hi
  obtain ⟨E, h3, hE⟩ := knownExp_spec cfg x c e hx hc
  have hTl : (i ++ fd).length = i.length + fd.length := List.length_append
  have hfl : pieceLen (if f = [] then none else some (f.tail, f.tail ++ (x ++ c))) = fd.length := by
    rcases hf with ⟨rfl, rfl⟩ | ⟨rfl, _⟩ <;> simp [pieceLen]
  have hsig1 : ∀ k, digitsKnown cfg 0 (i.take k) (i ++ (f ++ (x ++ c))) =
      .ok (decFrom 0 (i.take (if cfg.skipEnd then i.length else k)) % 2 ^ 64) := fun k =>
    digitsKnown_spec cfg 0 k i _ (by decide) hid.2 hh2 ((hz.append x).append f)
  unfold knownDigits
  rw [hfl]
  by_cases hw : cfg.maxDig < i.length
  · rw [if_pos hw, hsig1, Res.ok_bind, h3, Res.ok_bind]
    refine ⟨if cfg.skipEnd then i.length else cfg.maxDig, s₀, E, ?_, hE, ?_, ?_⟩
    · rw [show min (i ++ fd).length cfg.maxDig = cfg.maxDig by omega]
      have : (i ++ fd).take (if cfg.skipEnd then i.length else cfg.maxDig) =
          i.take (if cfg.skipEnd then i.length else cfg.maxDig) := by
        rw [List.take_append_of_le_length (by split <;> omega)]
      rw [this]
      rfl
    · rw [if_pos hw, show min (i ++ fd).length cfg.maxDig = cfg.maxDig by omega]
    · rcases hs with hs | hs
      · exact Or.inr (Or.inr ⟨hw, hs⟩)
      · exact Or.inr (Or.inl hs)
  · rw [if_neg hw]
    have h1 := hsig1 i.length
    rw [List.take_length] at h1
    rw [h1, Res.ok_bind]
    have hii : i.take (if cfg.skipEnd then i.length else i.length) = i := by
      rw [ite_self, List.take_length]
    rw [hii]
    have hp : (-((min fd.length (cfg.maxDig - i.length) : Nat) : Int)) =
        (i.length : Int) - (min (i ++ fd).length cfg.maxDig : Nat) := by omega
    have hfr : knownFrac cfg (decFrom 0 i % 2 ^ 64) (min fd.length (cfg.maxDig - i.length))
        (if f = [] then none else some (f.tail, f.tail ++ (x ++ c))) =
        (.ok (decVal ((i ++ fd).take
          (if cfg.skipEnd then (i ++ fd).length else min (i ++ fd).length cfg.maxDig)) % 2 ^ 64) : Res Nat) := by
      rcases hf with ⟨rfl, rfl⟩ | ⟨rfl, hfd⟩
      · simp only [if_true, List.append_nil]
        have : (if cfg.skipEnd then i.length else min i.length cfg.maxDig) = i.length := by split <;> omega
        rw [this, List.take_length]
        rfl
      · rw [if_neg (by simp)]
        dsimp only [List.tail_cons, knownFrac]
        rw [digitsKnown_spec cfg _ _ fd (x ++ c) (Nat.mod_lt _ (by decide)) hfd.2 (fun y hy => (hh y hy).1) (hz.append x)]
        have : (if cfg.skipEnd then (i ++ fd).length else min (i ++ fd).length cfg.maxDig) =
            i.length + (if cfg.skipEnd then fd.length else min fd.length (cfg.maxDig - i.length)) := by
          split <;> omega
        rw [this, decVal_take_append]
        rfl
    rw [hfr, Res.ok_bind, h3, Res.ok_bind, hp]
    refine ⟨_, s₀ || decide (cfg.maxDig - i.length < fd.length), E, rfl, hE, by rw [if_neg hw], ?_⟩
    by_cases hfd : cfg.maxDig - i.length < fd.length
    · exact Or.inr (Or.inl (by simp [hfd]))
    · exact Or.inl (by omega)

/-- Everything `parse_real_known` does on a JSON number: `k` digits in the significand, the exponent as if there were
`min T maxDig`. -/
theorem realKnown_spec (cfg : RCfg) (neg : Bool) (i f fd x c : Bytes) (e : Int) (hi : IsInt i)
    (hf : FracDigits f fd) (hx : ExpDenotes x e) (hc : NumEnd c) (hz : RRoom cfg c) :
    ∃ (k : Nat) (s : Bool) (E : Int), realKnown cfg (numRange neg i f x) c =
        (if inInt64 ((i.length : Int) - (min (i ++ fd).length cfg.maxDig : Nat) + E) then
          .ok (finish cfg s (numRange neg i f x).text (if neg then -1 else 1)
            (decVal ((i ++ fd).take k) % 2 ^ 64) ((i.length : Int) - (min (i ++ fd).length cfg.maxDig : Nat) + E))
          else .ub) ∧
      (e.natAbs < 2 ^ 63 → E = e) ∧
      k = (if cfg.skipEnd then (if cfg.maxDig < i.length then i.length else (i ++ fd).length)
        else min (i ++ fd).length cfg.maxDig) ∧
      ((i ++ fd).length ≤ cfg.maxDig ∨ s = true ∨ (cfg.maxDig < i.length ∧ (i ++ fd).length ≤ 19)) := by
  have hw : ∀ e', assertWeak cfg.checked true e' = .ok () := by intro e'; cases cfg.checked <;> rfl
  have hTl : (i ++ fd).length = i.length + fd.length := List.length_append
  have hfl : pieceLen (if f = [] then none else some (f.tail, f.tail ++ (x ++ c))) = fd.length := by
    rcases hf with ⟨rfl, rfl⟩ | ⟨rfl, _⟩ <;> simp [pieceLen]
  obtain ⟨d, t, hit, hd⟩ := isDigits_head (isInt_digits hi)
  have hdd := (isDigit_iff d).2 hd
  have hdn := dig_ne hd
  unfold realKnown
  rw [splitKnown_range]
  dsimp only
  rw [hfl]
  cases neg
  · have ht : (numRange false i f x).text = d :: (t ++ (f ++ x)) := by
      unfold numRange; simp [hit]
    rw [ht]
    dsimp only
    rw [show isNumberStart d = true by simp [isNumberStart, hdd], hw, Res.ok_bind, deref_cons, Res.ok_bind,
      if_neg hdn.2.1]
    simp only [Bool.false_eq_true, if_false, List.nil_append]
    exact knownDigits_spec cfg i f fd x c _ 1 e _ hi hf hx hc hz (by
      by_cases h : 19 < i.length + fd.length
      · exact Or.inr (by simpa using h)
      · exact Or.inl (by omega))
  · have ht : (numRange true i f x).text = chMinus :: (i ++ (f ++ x)) := by
      unfold numRange; simp
    rw [ht]
    dsimp only
    rw [show isNumberStart chMinus = true by decide, hw, Res.ok_bind, deref_cons, Res.ok_bind,
      if_pos rfl]
    simp only [if_true, List.singleton_append, List.tail_cons]
    exact knownDigits_spec cfg i f fd x c _ (-1) e _ hi hf hx hc hz (by
      by_cases h : 19 < i.length + fd.length
      · exact Or.inr (by simp; omega)
      · exact Or.inl (by omega))

end Verif
