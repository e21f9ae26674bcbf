import Verif.Proof.IntWord
import Verif.Proof.IntWrite
import Verif.Proof.SkipExact

/-!
# Integer parsing: the value computed on a run of digits
-/

namespace Verif

open Spec

/-- Continue a numeral from the value `r`. -/
def decFrom (r : Nat) (ds : Bytes) : Nat := ds.foldl (fun a c => 10 * a + digVal c) r

theorem decFrom_append (r : Nat) (a b : Bytes) : decFrom r (a ++ b) = decFrom (decFrom r a) b := by
  simp [decFrom]

theorem decFrom_cons (r : Nat) (c : UInt8) (cs : Bytes) :
    decFrom r (c :: cs) = decFrom (10 * r + digVal c) cs := by simp only [decFrom, List.foldl_cons]

theorem decFrom_eq (ds : Bytes) : ∀ r, decFrom r ds = r * 10 ^ ds.length + decVal ds := by
  induction ds with
  | nil => intro r; simp [decFrom, decVal]
  | cons c cs ih =>
    intro r
    have h : decVal (c :: cs) = decFrom (digVal c) cs := by simp [decVal, decFrom]
    rw [decFrom_cons, ih, h, ih, List.length_cons, Nat.pow_succ]
    rw [Nat.add_mul]
    rw [show 10 * r * 10 ^ cs.length = r * (10 ^ cs.length * 10) by
      rw [Nat.mul_comm 10 r, Nat.mul_assoc, Nat.mul_comm 10]]
    omega

theorem decFrom_mod (m r : Nat) (ds : Bytes) : decFrom (r % m) ds % m = decFrom r ds % m := by
  rw [decFrom_eq, decFrom_eq]
  rw [Nat.add_mod, Nat.mul_mod, Nat.mod_mod, ← Nat.mul_mod, ← Nat.add_mod]

theorem decFrom_congr {m r s : Nat} (ds : Bytes) (h : r % m = s % m) : decFrom r ds % m = decFrom s ds % m := by
  rw [← decFrom_mod, h, decFrom_mod]

theorem mulAdd64_eq (r m x : Nat) : mulAdd64 r m x % 2 ^ 64 = (r * m + x) % 2 ^ 64 := by
  unfold mulAdd64
  rw [Nat.mod_mod, Nat.mod_add_mod]

theorem mulAdd64_lt (r m x : Nat) : mulAdd64 r m x < 2 ^ 64 := Nat.mod_lt _ (by decide)

theorem digVal_le {c : UInt8} (h : IsDig c) : digVal c ≤ 9 := by
  simp only [IsDig, UInt8.le_iff_toNat_le] at h
  have : c.toNat ≤ 57 := h.2
  unfold digVal; omega

theorem parseDigit_dig {c : UInt8} (h : IsDig c) : parseDigit c = digVal c := by
  have hh := c.toNat_lt
  simp only [IsDig, UInt8.le_iff_toNat_le] at h
  have h1 : 48 ≤ c.toNat := h.1
  have h2 : c.toNat ≤ 57 := h.2
  unfold parseDigit digVal
  rw [UInt8.toNat_sub]
  simp
  omega

theorem mod16_dig {c : UInt8} (h : IsDig c) : c.toNat % 16 = digVal c := by
  simp only [IsDig, UInt8.le_iff_toNat_le] at h
  have h1 : 48 ≤ c.toNat := h.1
  have h2 : c.toNat ≤ 57 := h.2
  unfold digVal; omega

/-- A list of at least eight elements. -/
theorem eight_cons {α : Type} (l : List α) (h : 8 ≤ l.length) :
    ∃ a b c d e f g i t, l = a :: b :: c :: d :: e :: f :: g :: i :: t := by
  match l, h with
  | a :: b :: c :: d :: e :: f :: g :: i :: t, _ => exact ⟨a, b, c, d, e, f, g, i, t, rfl⟩

theorem parse8_digits (bs : Bytes) (hl : 8 ≤ bs.length) (hd : ∀ c ∈ bs.take 8, IsDig c) :
    parse8 bs = decVal (bs.take 8) := by
  obtain ⟨a, b, c, d, e, f, g, i, t, rfl⟩ := eight_cons bs hl
  rw [parse8_cons]
  have h : ∀ x ∈ [a, b, c, d, e, f, g, i], IsDig x := by simpa using hd
  have h' : List.take 8 (a :: b :: c :: d :: e :: f :: g :: i :: t) = [a, b, c, d, e, f, g, i] := by simp
  rw [h', mod16_dig (h a (by simp)), mod16_dig (h b (by simp)), mod16_dig (h c (by simp)),
    mod16_dig (h d (by simp)), mod16_dig (h e (by simp)), mod16_dig (h f (by simp)), mod16_dig (h g (by simp)),
    mod16_dig (h i (by simp))]
  simp only [decVal, List.foldl_cons, List.foldl_nil]
  omega

theorem isEightDigits_iff (bs : Bytes) (hl : 8 ≤ bs.length) :
    isEightDigits bs = true ↔ ∀ c ∈ bs.take 8, IsDig c := by
  obtain ⟨a, b, c, d, e, f, g, i, t, rfl⟩ := eight_cons bs hl
  rw [isEightDigits_cons]
  simp

theorem decVal_lt {ds : Bytes} (h : ∀ c ∈ ds, IsDig c) : decVal ds < 10 ^ ds.length := by
  induction ds with
  | nil => simp [decVal]
  | cons c cs ih =>
    have h1 := ih (fun x hx => h x (by simp [hx]))
    have h2 := digVal_le (h c (by simp))
    have h3 : decVal (c :: cs) = decFrom (digVal c) cs := by simp [decVal, decFrom]
    rw [h3, decFrom_eq, List.length_cons, Nat.pow_succ]
    have : digVal c * 10 ^ cs.length ≤ 9 * 10 ^ cs.length := Nat.mul_le_mul_right _ h2
    omega

theorem decVal_append (a b : Bytes) : decVal (a ++ b) = decVal a * 10 ^ b.length + decVal b := by
  have := decFrom_append 0 a b
  rw [decFrom_eq b] at this
  simpa [decFrom, decVal] using this

theorem parse16_digits (bs : Bytes) (hl : 16 ≤ bs.length) (hd : ∀ c ∈ bs.take 16, IsDig c) :
    parse16 bs = decVal (bs.take 16) := by
  have t16 : bs.take 16 = bs.take 8 ++ (bs.drop 8).take 8 := by
    rw [show 16 = 8 + 8 by rfl, List.take_add]
  rw [t16] at hd ⊢
  have d1 : ∀ c ∈ bs.take 8, IsDig c := fun c hc => hd c (by simp [hc])
  have d2 : ∀ c ∈ (bs.drop 8).take 8, IsDig c := fun c hc => hd c (by simp [hc])
  have e1 := parse8_digits bs (by omega) d1
  have e2 := parse8_digits (bs.drop 8) (by simp; omega) d2
  have l1 := decVal_lt d1
  have l2 := decVal_lt d2
  rw [decVal_append]
  have n1 : (bs.take 8).length = 8 := by simp; omega
  have n2 : ((bs.drop 8).take 8).length = 8 := by simp; omega
  rw [n1] at l1
  rw [n2] at l2 ⊢
  unfold parse16
  rw [e1, e2]
  omega

/-! ## Known bounds -/

theorem known16_spec (bs : Bytes) : ∀ r, (∀ c ∈ bs, IsDig c) →
    (∀ c ∈ (known16 r bs).2, IsDig c) ∧ decFrom (known16 r bs).1 (known16 r bs).2 % 2 ^ 64 = decFrom r bs % 2 ^ 64 := by
  induction h : bs.length using Nat.strongRecOn generalizing bs with
  | _ n ih =>
    intro r hd
    rw [known16]
    split
    · rename_i hl
      have hd16 : ∀ c ∈ bs.take 16, IsDig c := fun c hc => hd c (List.mem_of_mem_take hc)
      have hdd : ∀ c ∈ bs.drop 16, IsDig c := fun c hc => hd c (List.mem_of_mem_drop hc)
      obtain ⟨i1, i2⟩ := ih (bs.drop 16).length (by simp; omega) (bs.drop 16) rfl
        (mulAdd64 r 10000000000000000 (parse16 bs)) hdd
      refine ⟨i1, ?_⟩
      rw [i2]
      have hb : decFrom r bs = decFrom (decFrom r (bs.take 16)) (bs.drop 16) := by
        rw [← decFrom_append, List.take_append_drop]
      rw [hb]
      apply decFrom_congr
      rw [mulAdd64_eq, parse16_digits bs hl hd16, decFrom_eq (bs.take 16)]
      have : (bs.take 16).length = 16 := by simp; omega
      rw [this]
    · exact ⟨hd, rfl⟩

theorem known1_spec (bs : Bytes) : ∀ r, r < 2 ^ 64 → (∀ c ∈ bs, IsDig c) → known1 r bs = decFrom r bs % 2 ^ 64 := by
  induction bs with
  | nil => intro r hr _; simp [known1, decFrom]; omega
  | cons c cs ih =>
    intro r hr hd
    rw [known1, ih _ (mulAdd64_lt _ _ _) (fun x hx => hd x (by simp [hx])), decFrom_cons]
    apply decFrom_congr
    rw [mulAdd64_eq, parseDigit_dig (hd c (by simp)), Nat.mul_comm]

theorem known16_lt (bs : Bytes) : ∀ r, r < 2 ^ 64 → (known16 r bs).1 < 2 ^ 64 := by
  induction h : bs.length using Nat.strongRecOn generalizing bs with
  | _ n ih =>
    intro r hr
    rw [known16]
    split
    · exact ih (bs.drop 16).length (by simp; omega) (bs.drop 16) rfl _ (mulAdd64_lt _ _ _)
    · exact hr

/-- The value computed by `unsigned_parser_known` on digits: the number, modulo 2^64. -/
theorem knownVal_digits (bs : Bytes) (hd : ∀ c ∈ bs, IsDig c) : knownVal bs = decVal bs % 2 ^ 64 := by
  unfold knownVal
  obtain ⟨h1, h2⟩ := known16_spec bs 0 hd
  have h3 := known16_lt bs 0 (by decide)
  obtain ⟨⟨r, b⟩, hrb⟩ : ∃ p, known16 0 bs = p := ⟨_, rfl⟩
  rw [hrb] at h1 h2 h3 ⊢
  dsimp only at *
  have h0 : decFrom 0 bs = decVal bs := rfl
  rw [← h0, ← h2]
  split
  · rename_i hl
    rw [known1_spec _ _ (mulAdd64_lt _ _ _) (fun c hc => h1 c (List.mem_of_mem_drop hc))]
    have hb : decFrom r b = decFrom (decFrom r (b.take 8)) (b.drop 8) := by
      rw [← decFrom_append, List.take_append_drop]
    rw [hb]
    apply decFrom_congr
    rw [mulAdd64_eq, parse8_digits b hl (fun c hc => h1 c (List.mem_of_mem_take hc)), decFrom_eq (b.take 8)]
    have : (b.take 8).length = 8 := by simp; omega
    rw [this]
  · exact known1_spec _ _ h3 h1

/-! ## Unknown bounds -/

/-- `rest` does not continue the digits. -/
def NoDig (rest : Bytes) : Prop := ∀ x, rest.head? = some x → ¬ IsDig x

/-- A block of digits at the front of `ds ++ rest` lies within `ds`. -/
theorem block_in_digits {ds rest : Bytes} (hr : NoDig rest) (k : Nat) (hl : k ≤ (ds ++ rest).length)
    (hd : ∀ c ∈ (ds ++ rest).take k, IsDig c) : k ≤ ds.length := by
  cases Nat.lt_or_ge ds.length k with
  | inr h => exact h
  | inl h =>
    exfalso
    cases rest with
    | nil => simp at hl; omega
    | cons x t =>
      refine hr x rfl (hd x ?_)
      rw [List.take_append]
      obtain ⟨j, hj⟩ : ∃ j, k - ds.length = j + 1 := ⟨k - ds.length - 1, by omega⟩
      rw [hj]
      simp

theorem notKnown16_spec (rest : Bytes) (hr : NoDig rest) (ds : Bytes) : ∀ r, r < 2 ^ 64 → (∀ c ∈ ds, IsDig c) →
    ∃ r' ds' he, notKnown16 r (ds ++ rest) = (r', ds' ++ rest, he) ∧ r' < 2 ^ 64 ∧ (∀ c ∈ ds', IsDig c) ∧
      decFrom r' ds' % 2 ^ 64 = decFrom r ds % 2 ^ 64 ∧ (he = true → 8 ≤ ds'.length) := by
  induction h : ds.length using Nat.strongRecOn generalizing ds with
  | _ n ih =>
    intro r hlt hd
    rw [notKnown16]
    split
    · rename_i hc
      obtain ⟨c1, c2, c3⟩ := hc
      simp only [Bool.and_eq_true, decide_eq_true_eq] at c1
      have e1 := (isEightDigits_iff _ c1.1).1 c1.2
      have e2 := (isEightDigits_iff _ (by rw [List.length_drop]; omega)).1 c3
      have e16 : ∀ c ∈ (ds ++ rest).take 16, IsDig c := by
        have t16 : (ds ++ rest).take 16 = (ds ++ rest).take 8 ++ ((ds ++ rest).drop 8).take 8 := by
          rw [show 16 = 8 + 8 by rfl, List.take_add]
        intro c hc
        rw [t16, List.mem_append] at hc
        exact hc.elim (e1 c) (e2 c)
      have hl := block_in_digits hr 16 c2 e16
      rw [List.drop_append_of_le_length hl]
      have ht : (ds ++ rest).take 16 = ds.take 16 := List.take_append_of_le_length hl
      have hp := parse16_digits (ds ++ rest) c2 e16
      rw [ht] at hp
      rw [hp]
      obtain ⟨r', ds', he, i1, i2, i3, i4, i5⟩ := ih (ds.drop 16).length (by simp; omega) (ds.drop 16) rfl
        (mulAdd64 r 10000000000000000 (decVal (ds.take 16))) (mulAdd64_lt _ _ _)
        (fun c hc => hd c (List.mem_of_mem_drop hc))
      refine ⟨r', ds', he, i1, i2, i3, ?_, i5⟩
      rw [i4]
      have hb : decFrom r ds = decFrom (decFrom r (ds.take 16)) (ds.drop 16) := by
        rw [← decFrom_append, List.take_append_drop]
      rw [hb]
      apply decFrom_congr
      rw [mulAdd64_eq, decFrom_eq (ds.take 16)]
      have : (ds.take 16).length = 16 := by simp; omega
      rw [this]
    · refine ⟨r, ds, _, rfl, hlt, hd, rfl, ?_⟩
      intro he
      simp only [Bool.and_eq_true, decide_eq_true_eq] at he
      exact block_in_digits hr 8 he.1 ((isEightDigits_iff _ he.1).1 he.2)

theorem notKnown1_spec (rest : Bytes) (hr : NoDig rest) (ds : Bytes) : ∀ r, r < 2 ^ 64 → (∀ c ∈ ds, IsDig c) →
    notKnown1 r (ds ++ rest) = (decFrom r ds % 2 ^ 64, rest) := by
  induction ds with
  | nil =>
    intro r hlt _
    have hm : decFrom r [] % 2 ^ 64 = r := by simp only [decFrom, List.foldl_nil]; exact Nat.mod_eq_of_lt hlt
    rw [hm]
    cases rest with
    | nil => rfl
    | cons x t =>
      have := hr x rfl
      rw [← isDigit_iff] at this
      simp [notKnown1, this]
  | cons c cs ih =>
    intro r hlt hd
    have hc := (isDigit_iff c).2 (hd c (by simp))
    rw [List.cons_append, notKnown1, if_pos hc, ih _ (mulAdd64_lt _ _ _) (fun x hx => hd x (by simp [hx])),
      decFrom_cons]
    congr 1
    apply decFrom_congr
    rw [mulAdd64_eq, parseDigit_dig (hd c (by simp)), Nat.mul_comm]

/-- The value computed by `unsigned_parser_not_known` on digits: the number, modulo 2^64, and the rest. -/
theorem notKnownVal_digits (ds rest : Bytes) (hd : ∀ c ∈ ds, IsDig c) (hr : NoDig rest) :
    notKnownVal (ds ++ rest) = (decVal ds % 2 ^ 64, rest) := by
  unfold notKnownVal
  obtain ⟨r', ds', he, i1, i2, i3, i4, i5⟩ := notKnown16_spec rest hr ds 0 (by decide) hd
  rw [i1]
  dsimp only
  have h0 : decFrom 0 ds = decVal ds := rfl
  rw [← h0, ← i4]
  split
  · rename_i hh
    have hl := i5 hh
    rw [List.drop_append_of_le_length hl]
    have ht : (ds' ++ rest).take 8 = ds'.take 8 := List.take_append_of_le_length hl
    have hp := parse8_digits (ds' ++ rest) (by simp; omega)
      (by rw [ht]; exact fun c hc => i3 c (List.mem_of_mem_take hc))
    rw [hp, ht, notKnown1_spec rest hr _ _ (mulAdd64_lt _ _ _) (fun c hc => i3 c (List.mem_of_mem_drop hc))]
    have hb : decFrom r' ds' = decFrom (decFrom r' (ds'.take 8)) (ds'.drop 8) := by
      rw [← decFrom_append, List.take_append_drop]
    rw [hb]
    congr 1
    apply decFrom_congr
    rw [mulAdd64_eq, decFrom_eq (ds'.take 8)]
    have : (ds'.take 8).length = 8 := by simp; omega
    rw [this]
  · exact notKnown1_spec rest hr ds' r' i2 i3

theorem narrowUnsigned_eq (bits n : Nat) (hn : n < 2 ^ 64) :
    narrowUnsigned bits n = if n < 2 ^ bits then .ok n else .err .numberOutOfRange := by
  unfold narrowUnsigned
  have hp : 0 < 2 ^ bits := Nat.pow_pos (by decide)
  by_cases hb : 64 ≤ bits
  · have : 2 ^ 64 ≤ 2 ^ bits := Nat.pow_le_pow_right (by decide) hb
    rw [if_pos hb, if_pos (by omega)]
  · rw [if_neg hb]
    by_cases h : n < 2 ^ bits
    · rw [if_pos h, if_pos (by omega)]
    · rw [if_neg h, if_neg (by omega)]

/-- `unsigned_parser_not_known` on digits. -/
theorem unsignedNotKnown_digits (cfg : Cfg) (bits : Nat) (rc : Bool) (ds rest : Bytes) (hd : IsDigits ds)
    (hr : NoDig rest) :
    unsignedNotKnown cfg bits rc (ds ++ rest) =
      if rc then
        if ds.length ≤ 20 ∧ decVal ds % 2 ^ 64 < 2 ^ bits then .ok (decVal ds % 2 ^ 64, rest)
        else .err .numberOutOfRange
      else .ok (decVal ds % 2 ^ 64 % 2 ^ bits, rest) := by
  unfold unsignedNotKnown
  have hne : (ds ++ rest).isEmpty = false := by
    cases ds with
    | nil => exact absurd rfl hd.1
    | cons c cs => rfl
  have h1 : assertWeak cfg.checked (!(ds ++ rest).isEmpty) .unexpectedEndOfData = .ok () := by
    rw [hne]; cases cfg.checked <;> rfl
  rw [h1, Res.ok_bind, notKnownVal_digits ds rest hd.2 hr]
  dsimp only
  have hl : (ds ++ rest).length - rest.length = ds.length := by simp
  rw [hl]
  cases rc with
  | false => rfl
  | true =>
    simp only [if_true]
    rw [narrowUnsigned_eq _ _ (Nat.mod_lt _ (by decide))]
    by_cases h20 : ds.length ≤ 20
    · by_cases hb : decVal ds % 2 ^ 64 < 2 ^ bits
      · simp [h20, hb]
      · simp [h20, hb]
    · simp [h20]

/-- `unsigned_parser_known` on digits. -/
theorem unsignedKnown_digits (bits : Nat) (rc : Bool) (ds : Bytes) (hd : IsDigits ds) :
    unsignedKnown bits rc ds =
      if rc then
        if decVal ds % 2 ^ 64 < 2 ^ bits then .ok (decVal ds % 2 ^ 64) else .err .numberOutOfRange
      else .ok (decVal ds % 2 ^ 64 % 2 ^ bits) := by
  unfold unsignedKnown
  rw [knownVal_digits ds hd.2]
  cases rc with
  | false => rfl
  | true =>
    simp only [if_true]
    rw [narrowUnsigned_eq _ _ (Nat.mod_lt _ (by decide))]

theorem isDigits_of_isInt {ds : Bytes} (h : IsInt ds) : IsDigits ds := by
  rcases h with rfl | h
  · exact ⟨by simp, by simp [IsDig]⟩
  · exact h.1

theorem noDig_after {c : Bytes} (h : AfterValue c) : NoDig c := by
  obtain ⟨w, t, hw, rfl, ht⟩ := h
  intro x hx
  cases w with
  | nil =>
    rcases ht with rfl | ⟨y, t', rfl, hy⟩
    · simp at hx
    · simp at hx
      subst hx
      rcases hy with rfl | rfl | rfl <;> simp [IsDig]
  | cons y w =>
    have hy := hw y (by simp)
    simp at hx
    subst hx
    unfold isWsByte at hy
    rcases hy with rfl | rfl | rfl | rfl <;> simp [IsDig]

theorem endOfItem_after {c : Bytes} (h : AfterValue c) : endOfItem c = true ∧ endOfItem (dropWs c) = true := by
  obtain ⟨w, t, hw, rfl, ht⟩ := h
  have h2 : endOfItem (dropWs (w ++ t)) = true := by
    rw [dropWs_ws w t hw]
    rcases ht with rfl | ⟨y, t', rfl, hy⟩
    · rfl
    · rw [dropWs_token hy]
      rcases hy with rfl | rfl | rfl <;> rfl
  refine ⟨?_, h2⟩
  cases w with
  | nil =>
    rcases ht with rfl | ⟨y, t', rfl, hy⟩
    · rfl
    · rcases hy with rfl | rfl | rfl <;> rfl
  | cons y w =>
    have hy := hw y (by simp)
    unfold isWsByte at hy
    rcases hy with rfl | rfl | rfl | rfl <;> rfl

theorem validateSignedFirst_minus (cfg : Cfg) (b : Bytes) :
    validateSignedFirst cfg (0x2D :: b) = .ok (-1, b) := by
  unfold validateSignedFirst
  cases h : cfg.checked <;> simp

theorem validateSignedFirst_digits (cfg : Cfg) (ds c : Bytes) (hd : IsInt ds) (hc : NoDig c) :
    validateSignedFirst cfg (ds ++ c) = .ok (1, ds ++ c) := by
  unfold validateSignedFirst
  have hdig := isDigits_of_isInt hd
  cases ds with
  | nil => exact absurd rfl hdig.1
  | cons x xs =>
    have hx := hdig.2 x (by simp)
    have hx' := (isDigit_iff x).2 hx
    have hm : x ≠ chMinus := by rintro rfl; revert hx; simp [IsDig]
    cases hck : cfg.checked
    · simp [hm, hx']
    · by_cases h0 : x = ch0
      · subst h0
        have hxs : xs = [] := by
          rcases hd with h | h
          · simpa using h
          · exact absurd rfl h.2
        subst hxs
        cases c with
        | nil => simp [ensure]
        | cons y t =>
          have hy := hc y rfl
          rw [← isDigit_iff] at hy
          simp [ensure, hy]
      · simp [hm, h0, hx']

theorem parseSigned_digits (cfg : Cfg) (bits : Nat) (rc neg : Bool) (ds c : Bytes) (hd : IsInt ds)
    (hc : AfterValue c) (hr : Room' cfg c) :
    parseSigned cfg bits rc ((if neg then 0x2D :: ds else ds) ++ c) =
      (unsignedNotKnown cfg bits rc (ds ++ c)).bind fun p =>
        if p.2 = c then .ok (toSigned bits p.1 (if neg then -1 else 1), dropWs c) else .err .unknown := by
  unfold parseSigned
  have hdig := isDigits_of_isInt hd
  have hne : ds ≠ [] := hdig.1
  have h1 : assertWeak cfg.checked (!((if neg then 0x2D :: ds else ds) ++ c).isEmpty) .unexpectedEndOfData
      = .ok () := by
    have : ((if neg then 0x2D :: ds else ds) ++ c).isEmpty = false := by
      cases neg <;> cases ds <;> simp_all
    rw [this]; cases cfg.checked <;> rfl
  have h2 : validateSignedFirst cfg ((if neg then 0x2D :: ds else ds) ++ c)
      = .ok ((if neg then -1 else 1), ds ++ c) := by
    cases neg with
    | true => exact validateSignedFirst_minus cfg (ds ++ c)
    | false => exact validateSignedFirst_digits cfg ds c hd (noDig_after hc)
  rw [h1, Res.ok_bind, h2, Res.ok_bind]
  dsimp only
  rw [unsignedNotKnown_digits cfg bits rc ds c hdig (noDig_after hc)]
  have fin : ∀ u : Nat, (do
      let b ← trim cfg c
      assertWeak cfg.checked (endOfItem b) .invalidEndOfValue
      Res.ok (toSigned bits u (if neg then -1 else 1), b)) =
      .ok (toSigned bits u (if neg then -1 else 1), dropWs c) := by
    intro u
    rw [trim_after hc hr, Res.ok_bind, (endOfItem_after hc).2]
    cases cfg.checked <;> rfl
  cases rc with
  | false =>
    simp only [Bool.false_eq_true, if_false, Res.ok_bind, fin]
    simp [Res.bind]
  | true =>
    simp only [if_true]
    split
    · simp only [Res.ok_bind, fin]
      simp [Res.bind]
    · rfl

theorem parseUnsigned_digits (cfg : Cfg) (bits : Nat) (rc : Bool) (ds c : Bytes) (hd : IsInt ds)
    (hc : NoDig c) (he : endOfItem c = true) :
    parseUnsigned cfg bits rc (ds ++ c) =
      (unsignedNotKnown cfg bits rc (ds ++ c)).bind fun p =>
        if p.2 = c then .ok ((p.1 : Int), c) else .err .unknown := by
  unfold parseUnsigned
  have hdig := isDigits_of_isInt hd
  have hne : ds ≠ [] := hdig.1
  have h1 : assertWeak cfg.checked (!(ds ++ c).isEmpty) .unexpectedEndOfData = .ok () := by
    have : (ds ++ c).isEmpty = false := by cases ds <;> simp_all
    rw [this]; cases cfg.checked <;> rfl
  have h2 : (whenChecked cfg do
      let c ← deref (ds ++ c)
      ensure (isDigit c) .invalidNumber) = Res.ok () := by
    unfold whenChecked
    cases ds with
    | nil => exact absurd rfl hne
    | cons x xs =>
      have hx' := (isDigit_iff x).2 (hdig.2 x (by simp))
      cases cfg.checked <;> simp [hx']
  rw [h1, Res.ok_bind, h2, Res.ok_bind]
  rw [unsignedNotKnown_digits cfg bits rc ds c hdig hc, ]
  have h3 : assertWeak cfg.checked (endOfItem c) .invalidEndOfValue = .ok () := by
    rw [he]; cases cfg.checked <;> rfl
  cases rc with
  | false =>
    simp only [Bool.false_eq_true, if_false, Res.ok_bind, h3]
    simp [Res.bind]
  | true =>
    simp only [if_true]
    split
    · simp only [Res.ok_bind, h3]
      simp [Res.bind]
    · rfl

theorem parseSignedKnown_digits (cfg : Cfg) (bits : Nat) (rc neg : Bool) (ds : Bytes) (hd : IsInt ds) :
    parseSignedKnown cfg bits rc (if neg then 0x2D :: ds else ds) =
      (unsignedKnown bits rc ds).bind fun u => .ok (toSigned bits u (if neg then -1 else 1)) := by
  unfold parseSignedKnown
  have hdig := isDigits_of_isInt hd
  have hne : ds ≠ [] := hdig.1
  have h1 : (whenChecked cfg do
      let c ← derefEnd cfg (if neg then 0x2D :: ds else ds)
      ensure (c == chMinus || isDigit c) .invalidNumberStart) = Res.ok () := by
    unfold whenChecked
    cases neg with
    | true => cases cfg.checked <;> simp
    | false =>
      cases ds with
      | nil => exact absurd rfl hne
      | cons x xs =>
        have hx' := (isDigit_iff x).2 (hdig.2 x (by simp))
        cases cfg.checked <;> simp [hx']
  have h2 : validateSignedFirst cfg (if neg then 0x2D :: ds else ds) = .ok ((if neg then -1 else 1), ds) := by
    cases neg with
    | true => exact validateSignedFirst_minus cfg ds
    | false =>
      have := validateSignedFirst_digits cfg ds [] hd (by simp [NoDig])
      simpa using this
  rw [h1, Res.ok_bind, h2, Res.ok_bind]
  rfl

theorem parseUnsignedKnown_digits (cfg : Cfg) (bits : Nat) (rc : Bool) (ds : Bytes) (hd : IsInt ds) :
    parseUnsignedKnown cfg bits rc ds = (unsignedKnown bits rc ds).bind fun u => .ok (u : Int) := by
  unfold parseUnsignedKnown
  have hdig := isDigits_of_isInt hd
  have hne : ds ≠ [] := hdig.1
  have h1 : validateUnsignedFirst cfg ds = .ok () := by
    unfold validateUnsignedFirst
    cases ds with
    | nil => exact absurd rfl hne
    | cons x xs =>
      have hx' := (isDigit_iff x).2 (hdig.2 x (by simp))
      cases cfg.checked
      · simp
      · by_cases h0 : x = ch0
        · subst h0
          have hxs : xs = [] := by
            rcases hd with h | h
            · simpa using h
            · exact absurd rfl h.2
          subst hxs
          simp
        · simp [h0, hx']
  rw [h1, Res.ok_bind]
  rfl

/-! ## The signed conversion -/

theorem toSigned_pos {bits u : Nat} (hb : bits = 8 ∨ bits = 16 ∨ bits = 32 ∨ bits = 64) (hu : u < 2 ^ (bits - 1)) :
    toSigned bits u 1 = u := by
  unfold toSigned wrapSigned
  rcases hb with rfl | rfl | rfl | rfl <;> simp at hu ⊢ <;> split <;> (try omega) <;> split <;> omega

theorem toSigned_neg {bits u : Nat} (hb : bits = 8 ∨ bits = 16 ∨ bits = 32 ∨ bits = 64) (hu : u ≤ 2 ^ (bits - 1)) :
    toSigned bits u (-1) = -(u : Int) := by
  unfold toSigned wrapSigned
  rcases hb with rfl | rfl | rfl | rfl <;> simp at hu ⊢ <;> split <;> (try omega) <;> split <;> omega

theorem toSigned_wrap {bits u : Nat} (hb : bits = 8 ∨ bits = 16 ∨ bits = 32 ∨ bits = 64)
    (hl : 2 ^ (bits - 1) ≤ u) (hu : u < 2 ^ bits) :
    toSigned bits u 1 = (u : Int) - 2 ^ bits := by
  unfold toSigned wrapSigned
  rcases hb with rfl | rfl | rfl | rfl <;> simp at hu hl ⊢ <;> split <;> (try omega) <;> split <;> omega

end Verif
