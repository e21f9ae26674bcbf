import Verif.Proof.RealDec
import Verif.Proof.ZeroTermInt

/-!
# Zero terminated documents: reals
-/

namespace Verif

open Spec

theorem unkWholeZ_spec {m k : Nat} {i r : Bytes} (hd : ∀ c ∈ i, IsDig c) (hr : NoDig r) :
    unkWholeZ m k (i ++ r) = (decVal i % 2 ^ 64, 0, r) := by
  unfold unkWholeZ
  rw [notKnown1_spec r hr i 0 (by decide) hd]
  dsimp only
  have h1 : skipDigits r = r := skipDigits_digits [] r (by simp) hr
  rw [h1]
  have h2 : decFrom 0 i = decVal i := rfl
  rw [h2, Nat.sub_self]
  simp

theorem unkFracZ_spec {m k : Nat} {b i f fd c : Bytes} (hf : FracDigits f fd)
    (hc : ∀ x, c.head? = some x → ¬ IsDig x ∧ x ≠ chDot) :
    unkFracZ m k b (decVal i % 2 ^ 64) 0 (f ++ c) = (decVal (i ++ fd) % 2 ^ 64, -(fd.length : Int), c) := by
  have hnd : NoDig c := fun x hx => (hc x hx).1
  have h1 : skipDigits c = c := skipDigits_digits [] c (by simp) hnd
  rcases hf with ⟨rfl, rfl⟩ | ⟨rfl, hds⟩
  · have h2 : frontZ c ≠ chDot := by
      cases c with
      | nil => decide
      | cons y t => exact (hc y rfl).2
    unfold unkFracZ
    rw [List.nil_append, if_neg h2]
    simp
  · unfold unkFracZ
    have h3 : decFrom (decVal i % 2 ^ 64) fd % 2 ^ 64 = decVal (i ++ fd) % 2 ^ 64 := by
      have := decVal_take_append i fd fd.length
      rw [List.take_length, ← List.length_append, List.take_length] at this
      exact this.symm
    rw [List.cons_append, frontZ_cons, if_pos rfl, List.tail_cons]
    dsimp only
    rw [if_neg (by simp), notKnown1_spec c hnd fd _ (Nat.mod_lt _ (by decide)) hds.2]
    dsimp only
    rw [h1, h3, ite_self, List.length_append, Nat.add_sub_cancel]
    simp

theorem unkExpZ_spec {k : Nat} {x c : Bytes} {e : Int} (hx : ExpDenotes x e) (hc : NumEnd c) (hk : k ≤ c.length) :
    ∃ E, unkExpZ k (x ++ c) = .ok (E, c) ∧ (e.natAbs < 2 ^ 63 → E = e) := by
  have hnd : NoDig c := fun y hy => (hc y hy).1
  rcases hx with ⟨rfl, rfl⟩ | ⟨y, ds, hy, hds, hxs⟩
  · refine ⟨0, ?_, fun _ => rfl⟩
    rw [List.nil_append]
    unfold unkExpZ
    rw [if_neg]
    rintro ⟨-, h⟩
    cases c with
    | nil => exact absurd h (by decide)
    | cons y t => exact or20_ne (hc y rfl).2.2 h
  · obtain ⟨d, t, rfl, hd⟩ := isDigits_head hds
    have hdd := (isDigit_iff d).2 hd
    have hdn := dig_ne hd
    have hm : moreZ k (d :: t ++ c) = true := moreZ_append hk (by simp)
    have hdig : notKnown1 0 (d :: t ++ c) = (decVal (d :: t) % 2 ^ 64, c) := notKnown1_spec c hnd _ 0 (by decide) hds.2
    have hfr : frontZ (d :: t ++ c) = d := rfl
    have key : ∀ sg b, k ≤ b.length → unkExpSignZ k b = .ok (sg, d :: t ++ c) →
        unkExpZ k (y :: b) = .ok (toSigned 64 (decVal (d :: t) % 2 ^ 64) sg, c) := by
      intro sg b hkb hb
      unfold unkExpZ
      rw [if_pos ⟨moreZ_cons hkb, or20_e hy⟩, List.tail_cons, hb, Res.ok_bind]
      dsimp only
      rw [hm, ensure_true, Res.ok_bind, hdig]
    have hl : ∀ a : Bytes, k ≤ (a ++ c).length := by intro a; rw [List.length_append]; omega
    have val : ∀ n : Nat, n < 2 ^ 63 → n % 2 ^ 64 = n := by intro n hn; omega
    rcases hxs with ⟨rfl, rfl⟩ | ⟨rfl, rfl⟩ | ⟨rfl, rfl⟩
    · refine ⟨_, key 1 (d :: t ++ c) (hl _) ?_, ?_⟩
      · unfold unkExpSignZ
        rw [hfr, if_neg hdn.1, if_neg hdn.2.1, hdd, ensure_true, Res.ok_bind]
      · intro h
        rw [val _ (by simpa using h)]
        exact toSigned_pos (by simp) (by simpa using h)
    · refine ⟨_, key 1 (0x2B :: (d :: t) ++ c) (hl _) ?_, ?_⟩
      · unfold unkExpSignZ
        rw [List.cons_append, frontZ_cons, if_pos rfl, List.tail_cons, hfr, hm, hdd, Bool.and_self, ensure_true, Res.ok_bind]
      · intro h
        rw [val _ (by simpa using h)]
        exact toSigned_pos (by simp) (by simpa using h)
    · refine ⟨_, key (-1) (0x2D :: (d :: t) ++ c) (hl _) ?_, ?_⟩
      · unfold unkExpSignZ
        rw [List.cons_append, frontZ_cons, if_neg (by decide), if_pos rfl, List.tail_cons, hfr, hm, hdd, Bool.and_self,
          ensure_true, Res.ok_bind]
      · intro h
        have h' : decVal (d :: t) < 2 ^ 63 := by simpa using h
        rw [val _ h']
        exact toSigned_neg (by simp) (Nat.le_of_lt h')

/-- A number with few digits is read exactly. -/
theorem parseRealZ_dec {dbl : Bool} {txt : Bytes} {neg : Bool} {i fd : Bytes} {e : Int} (ht : NumText txt neg i fd e)
    (hT : (i ++ fd).length < tooLong dbl) (he : e.natAbs + (i ++ fd).length < 2 ^ 31) {r : Dec} (hr : r.Normal)
    (hv : r.val = numVal neg i fd e) {k : Nat} {c : Bytes} (hc : AfterValue c) (hk : k ≤ c.length) :
    parseRealZ dbl k (txt ++ c) = .ok (r, c) := by
  have hd := (numText_digits ht).2
  obtain ⟨f, x, hi, hf, hx, rfl⟩ := ht
  have hid := isInt_digits hi
  have hne := numEnd_after hc
  have hnd : NoDig (f ++ (x ++ c)) := IsFrac.head (fracDigits_isFrac hf) (expDenotes_isExp hx) hne
  have hl : ∀ a : Bytes, k ≤ (a ++ c).length := by intro a; rw [List.length_append]; omega
  have hl2 : k ≤ (f ++ (x ++ c)).length := by simp only [List.length_append]; omega
  have hvs : validateSignedFirstZ k ((if neg then [0x2D] else []) ++ (i ++ (f ++ x)) ++ c)
      = .ok (if neg then -1 else 1, i ++ (f ++ (x ++ c))) := by
    cases neg
    · simp only [Bool.false_eq_true, if_false, List.nil_append, List.append_assoc]
      exact validateSignedFirstZ_digits i _ hi hnd hl2
    · simp only [if_true, List.cons_append, List.nil_append, List.append_assoc]
      exact validateSignedFirstZ_minus _ (by simp only [List.length_append]; omega)
  have hm : moreZ k ((if neg then [0x2D] else []) ++ (i ++ (f ++ x)) ++ c) = true := by
    apply moreZ_append hk
    intro h
    exact hid.1 (List.append_eq_nil_iff.1 (List.append_eq_nil_iff.1 h).2).1
  have hst : isNumberStart (frontZ ((if neg then [0x2D] else []) ++ (i ++ (f ++ x)) ++ c)) = true := by
    cases neg
    · obtain ⟨d, t, rfl, hdd⟩ := isDigits_head hid
      have : frontZ ((if false then [0x2D] else []) ++ (d :: t ++ (f ++ x)) ++ c) = d := rfl
      rw [this]
      have := (isDigit_iff d).2 hdd
      simp [isNumberStart, this]
    · rfl
  obtain ⟨E, h2, h3⟩ := unkExpZ_spec (k := k) hx hne hk
  obtain rfl := h3 (by omega)
  unfold parseRealZ
  rw [hm, hst, Bool.and_self, ensure_true, Res.ok_bind, hvs, Res.ok_bind]
  dsimp only
  rw [unkWholeZ_spec hid.2 hnd]
  dsimp only
  rw [unkFracZ_spec hf (IsExp.head (expDenotes_isExp hx) hne)]
  dsimp only
  have hTl : (i ++ fd).length = i.length + fd.length := List.length_append
  rw [h2, Res.ok_bind]
  dsimp only
  rw [addExp_small _ _ _ (by omega), Res.ok_bind]
  have hend : (emptyZ k c || atEndOfItem (frontZ c)) = true := by
    have := endOfItemZ_of (k := k) (endOfItem_after hc).1
    unfold endOfItemZ at this
    unfold emptyZ
    cases h : moreZ k c
    · simp
    · rw [h] at this
      simp only [Bool.not_true, Bool.false_or] at this
      rw [this, Bool.or_true]
  rw [hend, ensure_true, Res.ok_bind]
  congr 2
  refine Dec.of_unique hr ?_
  rw [hv]
  have h5 := (numVal_full neg i fd E hd _ rfl (by have := Cfg.real_dig {} true dbl; omega)).symm
  rw [List.take_length, hTl, show (i.length : Int) - ((i.length + fd.length : Nat) : Int) + E = -(fd.length : Int) + E by omega] at h5
  exact h5

end Verif
