import Mathlib.Tactic.Ring
import Mathlib.Tactic.NormNum
import Verif.Model.RealOut
import Verif.Spec.Real
import Verif.Proof.IntWrite
import Verif.Proof.IntParse

/-!
# Lemmas on writing reals
-/

namespace Verif

open Spec

/-! ## Number of digits -/

/-- `v` has exactly `L` decimal digits (and is not 0). -/
def HasDigits (v L : Nat) : Prop := 1 ≤ L ∧ 10 ^ (L - 1) ≤ v ∧ v < 10 ^ L

theorem hasDigits_unique {v L M : Nat} (h : HasDigits v L) (h' : HasDigits v M) : L = M := by
  obtain ⟨a, b, c⟩ := h
  obtain ⟨a', b', c'⟩ := h'
  have h1 : L - 1 < M := (Nat.pow_lt_pow_iff_right (by decide : 1 < 10)).1 (Nat.lt_of_le_of_lt b c')
  have h2 : M - 1 < L := (Nat.pow_lt_pow_iff_right (by decide : 1 < 10)).1 (Nat.lt_of_le_of_lt b' c)
  omega

theorem decimalLength_spec (dbl : Bool) (v : Nat) (h0 : 0 < v) (h : v < if dbl then 10 ^ 17 else 10 ^ 9) :
    HasDigits v (decimalLength dbl v) ∧ decimalLength dbl v ≤ 17 := by
  have ite : ∀ (P : Nat → Prop) (b k r : Nat), (b ≤ v → P k) → (v < b → P r) → P (if b ≤ v then k else r) := by
    intro P b k r h1 h2
    split
    · exact h1 ‹_›
    · exact h2 (by omega)
  have fin : ∀ k, 10 ^ k ≤ v → v < 10 ^ (k + 1) → k < 17 → HasDigits v (k + 1) ∧ k + 1 ≤ 17 :=
    fun k h1 h2 h3 => ⟨⟨by omega, by simpa using h1, h2⟩, by omega⟩
  unfold decimalLength
  cases dbl
  · simp only [Bool.false_eq_true, if_false] at h ⊢
    iterate 8
      refine ite (fun L => HasDigits v L ∧ L ≤ 17) _ _ _ (fun h1 => fin _ h1 h (by decide)) (fun h => ?_)
    exact fin 0 h0 h (by decide)
  · simp only [if_true] at h ⊢
    iterate 16
      refine ite (fun L => HasDigits v L ∧ L ≤ 17) _ _ _ (fun h1 => fin _ h1 h (by decide)) (fun h => ?_)
    exact fin 0 h0 h (by decide)

theorem cxDigits_spec (n : Nat) (h : 0 < n) : HasDigits n (cxDigits n) := by
  induction n using Nat.strongRecOn with
  | _ n ih =>
    rw [cxDigits]
    split
    · exact ⟨Nat.le_refl _, by simp; omega, by simpa using ‹n < 10›⟩
    · obtain ⟨a, b, c⟩ := ih (n / 10) (by omega) (by omega)
      refine ⟨by omega, ?_, ?_⟩
      · rw [Nat.add_sub_cancel_left]
        obtain ⟨k, hk⟩ : ∃ k, cxDigits (n / 10) = k + 1 := ⟨cxDigits (n / 10) - 1, by omega⟩
        rw [hk] at b ⊢
        rw [Nat.pow_succ]
        simp only [Nat.add_sub_cancel] at b
        omega
      · rw [Nat.add_comm, Nat.pow_succ]
        omega

theorem isInt_hasDigits {ds : Bytes} (h : IsInt ds) (h0 : 0 < decVal ds) : HasDigits (decVal ds) ds.length := by
  rcases h with rfl | ⟨⟨hne, hd⟩, hh⟩
  · simp [decVal, digVal] at h0
  · refine ⟨?_, ?_, decVal_lt hd⟩
    · cases ds with
      | nil => exact absurd rfl hne
      | cons => simp
    · cases ds with
      | nil => exact absurd rfl hne
      | cons c cs =>
        rw [show c :: cs = [c] ++ cs from rfl, decVal_append]
        have hc := hd c (by simp)
        have : 1 ≤ decVal [c] := by
          have hc0 : c ≠ 0x30 := by simpa using hh
          unfold IsDig at hc
          simp only [decVal, digVal, List.foldl]
          have h1 : (0x30 : UInt8).toNat ≤ c.toNat := hc.1
          have h2 : c.toNat ≠ (0x30 : UInt8).toNat := fun e => hc0 (UInt8.toNat_inj.1 e)
          have h3 : (0x30 : UInt8).toNat = 48 := rfl
          omega
        simp only [List.cons_append, List.nil_append, List.length_cons, Nat.add_sub_cancel]
        calc 10 ^ cs.length = 1 * 10 ^ cs.length := by omega
          _ ≤ decVal [c] * 10 ^ cs.length := Nat.mul_le_mul_right _ this
          _ ≤ _ := Nat.le_add_right _ _

theorem writeUnsigned_hasDigits {n L : Nat} (h : HasDigits n L) : (writeUnsigned n).length = L := by
  obtain ⟨h1, h2⟩ := writeUnsigned_spec n
  have h0 : 0 < n := Nat.lt_of_lt_of_le (Nat.pow_pos (by decide)) h.2.1
  have := isInt_hasDigits h1 (by rw [h2]; exact h0)
  rw [h2] at this
  exact hasDigits_unique this h

theorem writeUnsigned_cxDigits (n : Nat) : (writeUnsigned n).length = cxDigits n := by
  by_cases h : 0 < n
  · exact writeUnsigned_hasDigits (cxDigits_spec n h)
  · obtain rfl : n = 0 := by omega
    decide +kernel

/-! ## The scientific writer -/

/-- Decimal digits of `v % 10 ^ n`, most significant first, with leading zeros. -/
def digs (v n : Nat) : Bytes := (List.range n).map fun j => digitChar (v / 10 ^ (n - 1 - j) % 10)

theorem digs_succ (v n : Nat) : digs v (n + 1) = digitChar (v / 10 ^ n % 10) :: digs v n := by
  unfold digs
  rw [List.range_succ_eq_map]
  simp only [List.map_cons, List.map_map, Nat.sub_zero, Nat.add_sub_cancel]
  congr 1
  apply List.map_congr_left
  intro j hj
  simp only [Function.comp, List.mem_range] at hj ⊢
  rw [show n - (j + 1) = n - 1 - j by omega]

theorem digs_length (v n : Nat) : (digs v n).length = n := by simp [digs]

theorem digs_digits (v n : Nat) : ∀ c ∈ digs v n, IsDig c := by
  intro c hc
  simp only [digs, List.mem_map] at hc
  obtain ⟨j, -, rfl⟩ := hc
  exact (digitChar_dig (Nat.mod_lt _ (by decide))).1

theorem digs_val (v n : Nat) : decVal (digs v n) = v % 10 ^ n := by
  induction n with
  | zero => simp [digs, decVal, Nat.mod_one]
  | succ n ih =>
    rw [digs_succ, show digitChar (v / 10 ^ n % 10) :: digs v n = [digitChar (v / 10 ^ n % 10)] ++ digs v n from rfl,
      decVal_append, ih, digs_length]
    have h : decVal [digitChar (v / 10 ^ n % 10)] = v / 10 ^ n % 10 := by
      have := (digitChar_dig (n := v / 10 ^ n % 10) (Nat.mod_lt _ (by decide))).2
      simpa [decVal] using this
    rw [h, Nat.pow_succ, Nat.mod_mul, Nat.mul_comm]
    omega

/-- What `to_chars_impl` maintains: the `i` least significant digits of `v` are at the end of the buffer. -/
def SciInv (v L o i : Nat) (b : CBuf) : Prop :=
  o = v / 10 ^ i ∧ ∀ k, k < i → b (L - k) = digitChar (v / 10 ^ k % 10)

theorem lt_len {v L i m : Nat} (hv : v < 10 ^ L) (h : 10 ^ m ≤ v / 10 ^ i) : i + m < L := by
  have h1 : 10 ^ m * 10 ^ i ≤ v := (Nat.le_div_iff_mul_le (Nat.pow_pos (by decide))).1 h
  rw [← Nat.pow_add] at h1
  have := (Nat.pow_lt_pow_iff_right (by decide : 1 < 10)).1 (Nat.lt_of_le_of_lt h1 hv)
  omega

theorem putPair_inv {v L o i : Nat} {b : CBuf} (hL : L ≤ 17) (hv : v < 10 ^ L) (h : SciInv v L o i b)
    (ho : 100 ≤ o) : ∃ b', putPair L (i + 1) (o % 100) b = .ok b' ∧ SciInv v L (o / 100) (i + 2) b' := by
  obtain ⟨h1, h2⟩ := h
  have hl : i + 2 < L := lt_len (m := 2) hv (by rw [← h1]; exact ho)
  rw [putPair, if_neg (by omega)]
  refine ⟨_, rfl, ?_, ?_⟩
  · rw [h1, Nat.div_div_eq_div_mul, ← show 10 ^ 2 = 100 from rfl, ← Nat.pow_add]
  · intro k hk
    unfold CBuf.put
    by_cases h3 : k = i
    · subst h3
      rw [if_pos (by omega), h1]
      congr 1
      omega
    · by_cases h4 : k = i + 1
      · subst h4
        rw [if_neg (by omega), if_pos (by omega), h1, Nat.pow_succ, ← Nat.div_div_eq_div_mul]
        congr 1
        omega
      · rw [if_neg (by omega), if_neg (by omega)]
        exact h2 k (by omega)

theorem cut_mod (v : Nat) :
    (v % 4294967296 + (4294967296 - 100000000 * (v / 100000000 % 4294967296) % 4294967296)) % 4294967296 =
      v % 100000000 := by
  omega

theorem sciCut_inv (dbl : Bool) {v L : Nat} (b : CBuf) (hL : L ≤ 17) (hv : v < 10 ^ L)
    (hd : dbl = false → v < 10 ^ 9) :
    ∃ o i b', sciCut dbl L v b = .ok (o, i, b') ∧ SciInv v L o i b' ∧ o % 4294967296 = o ∧ (0 < v → 0 < o) := by
  have h17 : v < 10 ^ 17 := Nat.lt_of_lt_of_le hv (Nat.pow_le_pow_right (by decide) hL)
  have h17' : (10 : Nat) ^ 17 = 100000000000000000 := by norm_num
  have h0 : SciInv v L v 0 b := ⟨by simp, by intro k hk; omega⟩
  unfold sciCut
  by_cases h : dbl ∧ v / 4294967296 ≠ 0
  · rw [if_pos h]
    dsimp only
    rw [cut_mod]
    have hb : 4294967296 ≤ v := by omega
    rw [show v % 100000000 % 10000 % 100 = v % 100 by omega,
      show v % 100000000 % 10000 / 100 = v / 100 % 100 by omega,
      show v % 100000000 / 10000 % 10000 % 100 = v / 100 / 100 % 100 by omega,
      show v % 100000000 / 10000 % 10000 / 100 = v / 100 / 100 / 100 % 100 by omega]
    obtain ⟨b1, e1, i1⟩ := putPair_inv hL hv h0 (by omega)
    obtain ⟨b2, e2, i2⟩ := putPair_inv hL hv i1 (by omega)
    obtain ⟨b3, e3, i3⟩ := putPair_inv hL hv i2 (by omega)
    obtain ⟨b4, e4, i4⟩ := putPair_inv hL hv i3 (by omega)
    simp only [Nat.zero_add] at e1 e2 e3 e4
    rw [e1, Res.ok_bind, e2, Res.ok_bind, e3, Res.ok_bind, e4, Res.ok_bind]
    refine ⟨_, _, _, rfl, ⟨?_, i4.2⟩, ?_, ?_⟩
    · norm_num
    · omega
    · omega
  · rw [if_neg h]
    refine ⟨_, _, _, rfl, h0, ?_, id⟩
    cases dbl
    · have := hd rfl
      have h9 : (10 : Nat) ^ 9 = 1000000000 := by norm_num
      omega
    · simp at h
      omega

theorem sciLoop_inv {v L : Nat} (hL : L ≤ 17) (hv : v < 10 ^ L) (o : Nat) : ∀ i b, SciInv v L o i b →
    ∃ o' i' b', sciLoop L o i b = .ok (o', i', b') ∧ SciInv v L o' i' b' ∧ o' < 10000 ∧ (0 < o → 0 < o') := by
  induction o using Nat.strongRecOn with
  | _ o ih =>
    intro i b h
    rw [sciLoop]
    split
    · rename_i ho
      dsimp only
      rw [show o % 10000 % 100 = o % 100 by omega, show o % 10000 / 100 = o / 100 % 100 by omega]
      obtain ⟨b1, e1, i1⟩ := putPair_inv hL hv h (by omega)
      obtain ⟨b2, e2, i2⟩ := putPair_inv hL hv i1 (by omega)
      rw [e1, Res.ok_bind, e2, Res.ok_bind]
      rw [Nat.div_div_eq_div_mul] at i2
      obtain ⟨o', i', b', e, h1, h2, h3⟩ := ih (o / 10000) (by omega) (i + 4) b2 i2
      exact ⟨o', i', b', e, h1, h2, fun _ => h3 (by omega)⟩
    · exact ⟨o, i, b, rfl, h, by omega, id⟩

/-- The digits end up where they belong: the first at 0, the others from 2 on. -/
def SciDone (v L : Nat) (b : CBuf) : Prop :=
  b 0 = digitChar (v / 10 ^ (L - 1) % 10) ∧ ∀ k, k < L - 1 → b (L - k) = digitChar (v / 10 ^ k % 10)

theorem len_of {v L i m : Nat} (hv : HasDigits v L) (h1 : 10 ^ m ≤ v / 10 ^ i) (h2 : v / 10 ^ i < 10 ^ (m + 1)) :
    L = i + m + 1 := by
  have a := lt_len hv.2.2 h1
  have b : v < 10 ^ (m + 1) * 10 ^ i := (Nat.div_lt_iff_lt_mul (Nat.pow_pos (by decide))).1 h2
  rw [← Nat.pow_add] at b
  have c := (Nat.pow_lt_pow_iff_right (by decide : 1 < 10)).1 (Nat.lt_of_le_of_lt hv.2.1 b)
  omega

theorem sciLast_small {v L o i : Nat} {b : CBuf} (hL : L ≤ 17) (hv : HasDigits v L) (h : SciInv v L o i b)
    (ho : o < 100) (h0 : 0 < o) :
    ∃ b', (if 10 ≤ o then
        if L < i ∨ 50 ≤ L - i ∨ 100 ≤ o then .ub
        else .ok ((b.put (L - i) (digitChar (o % 10))).put 0 (digitChar (o / 10)))
      else (.ok (b.put 0 (digitChar o)) : Res CBuf)) = .ok b' ∧ SciDone v L b' := by
  obtain ⟨h1, h2⟩ := h
  split
  · rename_i h10
    have hl : L = i + 1 + 1 := len_of (m := 1) hv (by rw [← h1]; exact h10) (by rw [← h1]; exact ho)
    rw [if_neg (by omega)]
    refine ⟨_, rfl, ?_, ?_⟩
    · simp only [CBuf.put, if_true]
      rw [hl, Nat.add_sub_cancel, Nat.pow_succ, ← Nat.div_div_eq_div_mul, ← h1]
      congr 1; omega
    · intro k hk
      simp only [CBuf.put]
      rw [if_neg (by omega)]
      by_cases hki : k = i
      · subst hki; rw [if_pos rfl, ← h1]
      · rw [if_neg (by omega)]; exact h2 k (by omega)
  · have hl : L = i + 0 + 1 := len_of (m := 0) hv (by rw [← h1]; exact h0) (by rw [← h1]; omega)
    refine ⟨_, rfl, ?_, ?_⟩
    · simp only [CBuf.put, if_true]
      rw [hl, Nat.add_sub_cancel, Nat.add_zero, ← h1]
      congr 1; omega
    · intro k hk
      simp only [CBuf.put]
      rw [if_neg (by omega)]
      exact h2 k (by omega)

theorem sciLast_inv {v L o i : Nat} {b : CBuf} (hL : L ≤ 17) (hv : HasDigits v L) (h : SciInv v L o i b)
    (ho : o < 10000) (h0 : 0 < o) : ∃ b', sciLast L o i b = .ok b' ∧ SciDone v L b' := by
  unfold sciLast
  split
  · rename_i h100
    obtain ⟨b1, e1, i1⟩ := putPair_inv hL hv.2.2 h h100
    rw [e1]
    simp only [Res.ok_bind]
    exact sciLast_small hL hv i1 (by omega) (by omega)
  · simp only [Res.ok_bind]
    exact sciLast_small hL hv h (by omega) h0

theorem sciDone_text {v L : Nat} {b : CBuf} (hL : 1 ≤ L) (h : SciDone v L b) :
    (List.range (if 1 < L then L + 1 else 1)).map (if 1 < L then b.put 1 chDot else b) =
      digitChar (v / 10 ^ (L - 1) % 10) :: (if 1 < L then chDot :: digs v (L - 1) else []) := by
  by_cases h1 : 1 < L
  · simp only [h1, if_true]
    obtain ⟨M, rfl⟩ : ∃ M, L = M + 1 := ⟨L - 1, by omega⟩
    rw [List.range_succ_eq_map, List.range_succ_eq_map]
    simp only [List.map_cons, List.map_map]
    congr 1
    · simp only [CBuf.put]
      rw [if_neg (by decide)]
      exact h.1
    · congr 1
      unfold digs
      apply List.map_congr_left
      intro j hj
      simp only [List.mem_range] at hj
      simp only [Function.comp, CBuf.put]
      rw [if_neg (by omega)]
      have := h.2 (M - 1 - j) (by omega)
      rw [show M + 1 - (M - 1 - j) = j.succ.succ by omega] at this
      rw [this, show M + 1 - 1 - 1 - j = M - 1 - j by omega]
  · obtain rfl : L = 1 := by omega
    simp only [if_neg (by decide : ¬ 1 < 1)]
    have := h.1
    simp [List.range_succ] at this ⊢
    exact this

theorem decVal_one {n : Nat} (h : n < 10) : decVal [digitChar n] = n := by
  simpa [decVal] using (digitChar_dig h).2

theorem sciExp_spec (dbl : Bool) (e : Int) (h : e.natAbs < if dbl then 1000 else 100) :
    ∃ ds, sciExp dbl e = .ok ((if e < 0 then [chMinus] else []) ++ ds) ∧ IsDigits ds ∧ decVal ds = e.natAbs := by
  unfold sciExp
  have d1 : ∀ n, n < 10 → IsDigits [digitChar n] ∧ decVal [digitChar n] = n := by
    intro n hn
    exact ⟨⟨by simp, by simpa using (digitChar_dig hn).1⟩, decVal_one hn⟩
  have d2 : ∀ n, n < 100 → IsDigits [digitChar (n / 10), digitChar (n % 10)] ∧
      decVal [digitChar (n / 10), digitChar (n % 10)] = n := by
    intro n hn
    have a := digitChar_dig (n := n / 10) (by omega)
    have b := digitChar_dig (n := n % 10) (by omega)
    refine ⟨⟨by simp, by simpa using ⟨a.1, b.1⟩⟩, ?_⟩
    simp only [decVal, List.foldl, a.2, b.2]
    omega
  have d3 : ∀ n, n < 1000 → IsDigits [digitChar (n / 10 / 10), digitChar (n / 10 % 10), digitChar (n % 10)] ∧
      decVal [digitChar (n / 10 / 10), digitChar (n / 10 % 10), digitChar (n % 10)] = n := by
    intro n hn
    have a := digitChar_dig (n := n / 10 / 10) (by omega)
    have b := digitChar_dig (n := n / 10 % 10) (by omega)
    have c := digitChar_dig (n := n % 10) (by omega)
    refine ⟨⟨by simp, by simpa using ⟨a.1, b.1, c.1⟩⟩, ?_⟩
    simp only [decVal, List.foldl, a.2, b.2, c.2]
    omega
  cases dbl <;> simp only [Bool.false_eq_true, if_false, if_true] at h ⊢
  · split
    · rw [if_neg (by omega)]; exact ⟨_, rfl, d2 _ h⟩
    · exact ⟨_, rfl, d1 _ (by omega)⟩
  · split
    · rw [if_neg (by omega)]; exact ⟨_, rfl, d3 _ h⟩
    · split
      · exact ⟨_, rfl, d2 _ (by omega)⟩
      · exact ⟨_, rfl, d1 _ (by omega)⟩

theorem sciChars_eq (dbl : Bool) (sig : Nat) (exp : Int) (h0 : 0 < sig)
    (hs : sig < if dbl then 10 ^ 17 else 10 ^ 9)
    (he : (exp + decimalLength dbl sig - 1).natAbs < if dbl then 1000 else 100) :
    ∃ xs, IsDigits xs ∧ decVal xs = (exp + decimalLength dbl sig - 1).natAbs ∧
      sciChars dbl sig exp (decimalLength dbl sig) =
        .ok ((digitChar (sig / 10 ^ (decimalLength dbl sig - 1) % 10) ::
          (if 1 < decimalLength dbl sig then chDot :: digs sig (decimalLength dbl sig - 1) else [])) ++
          chLe :: ((if exp + decimalLength dbl sig - 1 < 0 then [chMinus] else []) ++ xs)) := by
  obtain ⟨hd, h17⟩ := decimalLength_spec dbl sig h0 hs
  generalize decimalLength dbl sig = L at hd h17 he
  obtain ⟨o, i, b, e1, i1, m1, p1⟩ := sciCut_inv dbl (fun _ => 0) h17 hd.2.2
    (by intro h; subst h; simpa using hs)
  obtain ⟨o2, i2, b2, e2, j2, l2, p2⟩ := sciLoop_inv h17 hd.2.2 o i b i1
  obtain ⟨b3, e3, j3⟩ := sciLast_inv h17 hd j2 l2 (p2 (p1 h0))
  obtain ⟨xs, e4, x1, x2⟩ := sciExp_spec dbl _ he
  refine ⟨xs, x1, x2, ?_⟩
  unfold sciChars
  rw [e1]
  simp only [Res.ok_bind]
  rw [m1, e2]
  simp only [Res.ok_bind]
  rw [e3]
  simp only [Res.ok_bind]
  rw [e4]
  simp only [Res.ok_bind]
  rw [sciDone_text hd.1 j3]

/-! ## Values -/

/-- `t`, after the sign, is a number of magnitude `q` with at most `N` digits and an exponent of at most `B`. -/
def DenText (neg : Bool) (t : Bytes) (q : ℚ) (N B : Nat) : Prop :=
  ∃ i fd e, NumText ((if neg then [chMinus] else []) ++ t) neg i fd e ∧ numAbs i fd e = q ∧ (i ++ fd).length ≤ N ∧
    e.natAbs ≤ B

theorem signed_denotes {txt : Bytes} {q : ℚ} (neg : Bool) (i f fd x : Bytes) (e : Int) (N B : Nat) (hi : IsInt i)
    (hf : FracDigits f fd) (hx : ExpDenotes x e) (ht : txt = i ++ (f ++ x)) (hN : (i ++ fd).length ≤ N)
    (hB : e.natAbs ≤ B)
    (hq : q = (decVal (i ++ fd) : ℚ) * (10 : ℚ) ^ (e - (fd.length : Int))) :
    DenText neg txt q N B :=
  ⟨i, fd, e, ⟨f, x, hi, hf, hx, by rw [ht]⟩, hq.symm, hN, hB⟩

theorem lead_digit {v L : Nat} (h : HasDigits v L) :
    0 < v / 10 ^ (L - 1) ∧ v / 10 ^ (L - 1) < 10 := by
  obtain ⟨a, b, c⟩ := h
  refine ⟨Nat.div_pos b (Nat.pow_pos (by decide)), ?_⟩
  rw [Nat.div_lt_iff_lt_mul (Nat.pow_pos (by decide)), Nat.mul_comm, ← Nat.pow_succ,
    show (L - 1).succ = L by omega]
  exact c

theorem sciChars_denotes (dbl neg : Bool) (sig : Nat) (exp : Int) (h0 : 0 < sig)
    (hs : sig < if dbl then 10 ^ 17 else 10 ^ 9)
    (he : (exp + decimalLength dbl sig - 1).natAbs < if dbl then 1000 else 100) :
    ∃ t, sciChars dbl sig exp (decimalLength dbl sig) = .ok t ∧
      DenText neg t ((sig : ℚ) * 10 ^ exp) (decimalLength dbl sig) 1000 := by
  obtain ⟨xs, hx, hv, e⟩ := sciChars_eq dbl sig exp h0 hs he
  obtain ⟨hd, h17⟩ := decimalLength_spec dbl sig h0 hs
  refine ⟨_, e, ?_⟩
  clear e
  generalize decimalLength dbl sig = L at hd h17 he hv
  obtain ⟨l0, l1⟩ := lead_digit hd
  rw [Nat.mod_eq_of_lt l1]
  have hint : IsInt [digitChar (sig / 10 ^ (L - 1))] := by
    right
    refine ⟨⟨by simp, by simpa using (digitChar_dig l1).1⟩, ?_⟩
    simpa using digitChar_ne_zero l1 l0
  have hexp : ExpDenotes (chLe :: ((if exp + L - 1 < 0 then [chMinus] else []) ++ xs)) (exp + L - 1) := by
    right
    refine ⟨chLe, xs, Or.inl rfl, hx, ?_⟩
    by_cases hn : exp + L - 1 < 0
    · right; right
      refine ⟨by simp [hn], ?_⟩
      rw [hv]; omega
    · left
      refine ⟨by simp [hn], ?_⟩
      rw [hv]; omega
  by_cases hL : 1 < L
  · simp only [hL, if_true]
    refine signed_denotes neg [digitChar (sig / 10 ^ (L - 1))] (chDot :: digs sig (L - 1)) (digs sig (L - 1)) _ _ _ _
      hint (Or.inr ⟨rfl, ?_, digs_digits _ _⟩) hexp (by simp) (by simp [digs_length]; omega)
      (by split at he <;> omega) ?_
    · intro h
      have := digs_length sig (L - 1)
      rw [h] at this
      simp at this
      omega
    · have hval : decVal ([digitChar (sig / 10 ^ (L - 1))] ++ digs sig (L - 1)) = sig := by
        rw [decVal_append, decVal_one l1, digs_val, digs_length, Nat.mul_comm]
        exact Nat.div_add_mod _ _
      rw [hval, digs_length]
      congr 2
      omega
  · obtain rfl : L = 1 := by have := hd.1; omega
    simp only [if_neg (by decide : ¬ 1 < 1)]
    refine signed_denotes neg [digitChar (sig / 10 ^ (1 - 1))] [] [] _ _ _ _ hint (Or.inl ⟨rfl, rfl⟩) hexp
      (by simp) (by simp) (by split at he <;> omega) ?_
    simp only [List.append_nil]
    rw [decVal_one l1]
    simp

theorem decVal_replicate_zero (n : Nat) : decVal (List.replicate n ch0) = 0 := by
  induction n with
  | zero => rfl
  | succ n ih =>
    rw [List.replicate_succ', decVal_append_one, ih]
    rfl

theorem doZeros_eq (n : Nat) (h : 0 < n) : doZeros n = List.replicate n ch0 := by
  induction n with
  | zero => omega
  | succ n ih =>
    rw [doZeros]
    split
    · subst_vars; rfl
    · rw [ih (by omega), List.replicate_succ]

theorem isInt_append {ds z : Bytes} (h : IsInt ds) (h0 : 0 < decVal ds) (hz : ∀ c ∈ z, IsDig c) : IsInt (ds ++ z) := by
  rcases h with rfl | ⟨⟨hne, hd⟩, hh⟩
  · simp [decVal, digVal] at h0
  · right
    refine ⟨⟨by simp [hne], ?_⟩, ?_⟩
    · intro c hc
      rcases List.mem_append.1 hc with h | h
      · exact hd c h
      · exact hz c h
    · cases ds with
      | nil => exact absurd rfl hne
      | cons => simpa using hh

theorem isDig_zero : IsDig ch0 := by unfold IsDig; decide

theorem zeros_dig (n : Nat) : ∀ c ∈ List.replicate n ch0, IsDig c := by
  intro c hc
  rw [List.eq_of_mem_replicate hc]
  exact isDig_zero

theorem ten_pow_toNat {e : Int} (h : 0 ≤ e) : (10 : ℚ) ^ e = (10 : ℚ) ^ e.toNat := by
  obtain ⟨n, rfl⟩ := Int.eq_ofNat_of_zero_le h
  simp

theorem hasDigits_div {v n L : Nat} (h : HasDigits v L) (hp : 0 < v / 10 ^ n) : HasDigits (v / 10 ^ n) (L - n) ∧ n < L := by
  have hl : n + 0 < L := lt_len (m := 0) h.2.2 hp
  refine ⟨⟨by omega, ?_, ?_⟩, by omega⟩
  · rw [Nat.le_div_iff_mul_le (Nat.pow_pos (by decide)), ← Nat.pow_add, show L - n - 1 + n = L - 1 by omega]
    exact h.2.1
  · rw [Nat.div_lt_iff_lt_mul (Nat.pow_pos (by decide)), ← Nat.pow_add, show L - n + n = L by omega]
    exact h.2.2

theorem decChars_denotes (neg : Bool) (sig L : Nat) (exp : Int) (hd : HasDigits sig L) :
    DenText neg (decChars sig exp (L + exp)) ((sig : ℚ) * 10 ^ exp)
      (if exp < 0 then max L (exp.natAbs + 1) else L + exp.natAbs) 0 := by
  have h0 : 0 < sig := Nat.lt_of_lt_of_le (Nat.pow_pos (by decide)) hd.2.1
  obtain ⟨w1, w2⟩ := writeUnsigned_spec sig
  have wl := writeUnsigned_hasDigits hd
  unfold decChars
  by_cases he : exp < 0
  · rw [if_pos he, if_pos he]
    by_cases hw : (L : Int) + exp < 0
    · rw [if_pos hw, doZeros_eq _ (by omega)]
      set fd := List.replicate (-((L : Int) + exp)).toNat ch0 ++ writeUnsigned sig with hfd
      have hlen : (fd.length : Int) = -exp := by
        rw [hfd, List.length_append, List.length_replicate, wl]
        omega
      refine signed_denotes neg [ch0] (chDot :: fd) fd [] 0 _ _ (Or.inl rfl) (Or.inr ⟨rfl, ?_, ?_⟩)
        (Or.inl ⟨rfl, rfl⟩) (by simp) (by rw [List.length_append, List.length_singleton]; omega) (by simp) ?_
      · intro h
        rw [h] at hlen
        simp at hlen
        omega
      · intro c hc
        rcases List.mem_append.1 hc with h | h
        · exact zeros_dig _ c h
        · exact (isDigits_of_isInt w1).2 c h
      · rw [hlen, decVal_append, hfd, decVal_append, decVal_replicate_zero, w2]
        simp [decVal, digVal]
    · rw [if_neg hw]
      obtain ⟨n, hn⟩ : ∃ n : Nat, exp = -(n : Int) := ⟨(-exp).toNat, by omega⟩
      have hn0 : 0 < n := by omega
      have hne : (10 : Nat) ^ n ≠ 1 := by
        have := Nat.one_lt_pow (n := n) (a := 10) (by omega) (by decide)
        omega
      subst hn
      simp only [Int.neg_neg, Int.toNat_natCast]
      rw [if_neg hne]
      have hp2 : sig - sig / 10 ^ n * 10 ^ n = sig % 10 ^ n := by
        have := Nat.div_add_mod sig (10 ^ n)
        rw [Nat.mul_comm] at this
        omega
      rw [hp2]
      obtain ⟨a1, a2⟩ := writeUnsigned_spec (sig / 10 ^ n)
      obtain ⟨b1, b2⟩ := writeUnsigned_spec (sig % 10 ^ n)
      set z := ((cxDigits sig : Int) - ((cxDigits (sig % 10 ^ n) : Int) + (cxDigits (sig / 10 ^ n) : Int))).toNat with hz
      set fd := List.replicate z ch0 ++ writeUnsigned (sig % 10 ^ n) with hfd
      have hds : cxDigits sig = L := hasDigits_unique (cxDigits_spec sig h0) hd
      have hpow : 0 < 10 ^ n := Nat.pow_pos (by decide)
      have hlen : fd.length = n := by
        rw [hfd, List.length_append, List.length_replicate, writeUnsigned_cxDigits, hz, hds]
        by_cases hp1 : 0 < sig / 10 ^ n
        · obtain ⟨c1, c2⟩ := hasDigits_div hd hp1
          have hd1 : cxDigits (sig / 10 ^ n) = L - n := hasDigits_unique (cxDigits_spec _ hp1) c1
          have hd2 : cxDigits (sig % 10 ^ n) ≤ n := by
            by_cases h2 : 0 < sig % 10 ^ n
            · have h3 := (cxDigits_spec _ h2).2.1
              have h4 : sig % 10 ^ n < 10 ^ n := Nat.mod_lt _ hpow
              have := (Nat.pow_lt_pow_iff_right (by decide : 1 < 10)).1 (Nat.lt_of_le_of_lt h3 h4)
              omega
            · rw [show sig % 10 ^ n = 0 by omega, show cxDigits 0 = 1 by decide +kernel]
              exact hn0
          omega
        · have hp0 : sig / 10 ^ n = 0 := by omega
          have hlt : sig < 10 ^ n := by
            rcases Nat.div_eq_zero_iff.1 hp0 with h | h
            · omega
            · exact h
          have hL : L = n := by
            have := (Nat.pow_lt_pow_iff_right (by decide : 1 < 10)).1 (Nat.lt_of_le_of_lt hd.2.1 hlt)
            omega
          rw [hp0, Nat.mod_eq_of_lt hlt, hds, show cxDigits 0 = 1 by decide +kernel]
          omega
      have hdv : decVal fd = sig % 10 ^ n := by
        rw [hfd, decVal_append, decVal_replicate_zero, b2]
        omega
      refine signed_denotes neg (writeUnsigned (sig / 10 ^ n)) (chDot :: fd) fd [] 0 _ _ a1 (Or.inr ⟨rfl, ?_, ?_⟩)
        (Or.inl ⟨rfl, rfl⟩) (by simp) ?_ (by simp) ?_
      · intro h
        rw [h] at hlen
        simp at hlen
        omega
      · intro c hc
        rcases List.mem_append.1 hc with h | h
        · exact zeros_dig _ c h
        · exact (isDigits_of_isInt b1).2 c h
      · have hle : sig / 10 ^ n ≤ sig := Nat.div_le_self _ _
        have h1 : (writeUnsigned (sig / 10 ^ n)).length ≤ max (L - n) 1 := by
          by_cases hp1 : 0 < sig / 10 ^ n
          · rw [writeUnsigned_hasDigits (hasDigits_div hd hp1).1]; omega
          · rw [show sig / 10 ^ n = 0 by omega, writeUnsigned_cxDigits, show cxDigits 0 = 1 by decide +kernel]
            omega
        rw [List.length_append, hlen]
        omega
      · rw [decVal_append, a2, hdv, hlen]
        rw [Nat.mul_comm, Nat.div_add_mod]
        simp
  · rw [if_neg he, if_neg he]
    refine signed_denotes neg (writeUnsigned sig ++ List.replicate exp.toNat ch0) [] [] [] 0 _ _ ?_ (Or.inl ⟨rfl, rfl⟩)
      (Or.inl ⟨rfl, rfl⟩) (by simp) (by rw [List.append_nil, List.length_append, List.length_replicate, wl]; omega) (by simp) ?_
    · exact isInt_append w1 (by rw [w2]; exact h0) (zeros_dig _)
    · rw [List.append_nil, decVal_append, decVal_replicate_zero, w2, List.length_replicate, ten_pow_toNat (by omega)]
      simp

theorem toChars_text (dbl : Bool) (fmt : FPFmt) (neg : Bool) (sig : Nat) (exp : Int) (h0 : 0 < sig)
    (hs : sig < if dbl then 10 ^ 17 else 10 ^ 9)
    (he : (exp + decimalLength dbl sig - 1).natAbs < if dbl then 1000 else 100) :
    ∃ t i fd e, toChars dbl fmt neg sig exp = .ok t ∧ NumText t neg i fd e ∧ numAbs i fd e = (sig : ℚ) * 10 ^ exp ∧
      (fmt = .scientific → (i ++ fd).length ≤ decimalLength dbl sig) ∧ (i ++ fd).length ≤ 2000 ∧ e.natAbs ≤ 1000 := by
  obtain ⟨hd, h17⟩ := decimalLength_spec dbl sig h0 hs
  unfold toChars
  dsimp only
  rw [if_neg (by omega)]
  obtain ⟨t, e, i, fd, e', g1, g2, g3, g4⟩ := sciChars_denotes dbl neg sig exp h0 hs he
  split
  · rw [e]; exact ⟨_, i, fd, e', rfl, g1, g2, fun _ => g3, by omega, g4⟩
  · rename_i hf
    split
    · rw [e]; exact ⟨_, i, fd, e', rfl, g1, g2, fun h => absurd h hf, by omega, g4⟩
    · obtain ⟨i, fd, e', g1, g2, g3, g4⟩ := decChars_denotes neg sig _ exp hd
      exact ⟨_, i, fd, e', rfl, g1, g2, fun h => absurd h hf, by split at he <;> split at g3 <;> omega, by omega⟩

theorem toChars_denotes (dbl : Bool) (fmt : FPFmt) (neg : Bool) (sig : Nat) (exp : Int) (h0 : 0 < sig)
    (hs : sig < if dbl then 10 ^ 17 else 10 ^ 9)
    (he : (exp + decimalLength dbl sig - 1).natAbs < if dbl then 1000 else 100) :
    ∃ t, toChars dbl fmt neg sig exp = .ok t ∧
      NumDenotes t ((if neg then -1 else 1) * ((sig : ℚ) * 10 ^ exp)) := by
  obtain ⟨t, i, fd, e, h1, ⟨f, x, g1, g2, g3, g4⟩, h3, -⟩ := toChars_text dbl fmt neg sig exp h0 hs he
  exact ⟨t, h1, neg, i, f, fd, x, e, g1, g2, g3, g4, by rw [← h3, numAbs, mul_assoc]⟩

/-- Exponents a `double` (`float`) can have leave room in the writer. -/
theorem real_exp_bound {dbl : Bool} {sig : Nat} {exp : Int} (h0 : 0 < sig)
    (hs : sig < if dbl then 10 ^ 17 else 10 ^ 9)
    (he : if dbl then -900 ≤ exp ∧ exp ≤ 900 else -90 ≤ exp ∧ exp ≤ 90) :
    (exp + decimalLength dbl sig - 1).natAbs < (if dbl then 1000 else 100) ∧
      decimalLength dbl sig ≤ if dbl then 17 else 9 := by
  have h := decimalLength_spec dbl sig h0 hs
  have h1 := h.1.1
  cases dbl
  · have h9 : decimalLength false sig ≤ 9 := by
      by_contra hcon
      have := h.1.2.1
      have h2 : 10 ^ 9 ≤ 10 ^ (decimalLength false sig - 1) := Nat.pow_le_pow_right (by decide) (by omega)
      simp only [Bool.false_eq_true, if_false] at hs
      omega
    simp only [Bool.false_eq_true, if_false] at he ⊢
    omega
  · have h17 := h.2
    simp only [if_true] at he ⊢
    omega

end Verif
