import Verif.Proof.SkipValue

/-!
# The bracket-counting loop on well-formed values
-/

namespace Verif

open Spec

/-- Bytes the bracket loop passes over without reacting. -/
def Neutral (c : UInt8) : Prop :=
  c ≠ chBslash ∧ c ≠ chQuote ∧ c ≠ chComma ∧ c ≠ chLBrack ∧ c ≠ chRBrack ∧ c ≠ chLBrace ∧ c ≠ chRBrace

/-- `k` is one of the two bracket kinds. -/
def IsBr (k : Brackets) : Prop := k = arrBr ∨ k = objBr

theorem brLoop_neutral1 {k : Brackets} (hk : IsBr k) (p s cnt : Nat) {c : UInt8} (cs : Bytes)
    (h : Neutral c) : brLoop k p s cnt (c :: cs) = brLoop k p s cnt cs := by
  obtain ⟨h1, h2, h3, h4, h5, h6, h7⟩ := h
  rw [brLoop]
  rcases hk with rfl | rfl <;> simp [h1, h2, h3, h4, h5, h6, h7, arrBr, objBr]

theorem brLoop_neutral {k : Brackets} (hk : IsBr k) (p s cnt : Nat) (l cs : Bytes)
    (h : ∀ c ∈ l, Neutral c) : brLoop k p s cnt (l ++ cs) = brLoop k p s cnt cs := by
  induction l with
  | nil => rfl
  | cons c l ih =>
    rw [List.cons_append, brLoop_neutral1 hk p s cnt _ (h c (by simp))]
    exact ih (fun d hd => h d (by simp [hd]))

theorem ws_neutral {w : Bytes} (h : IsWs w) : ∀ c ∈ w, Neutral c := by
  intro c hc
  rcases h c hc with rfl | rfl | rfl | rfl <;> simp [Neutral]

theorem dig_neutral {c : UInt8} (h : IsDig c) : Neutral c := by
  simp only [IsDig, UInt8.le_iff_toNat_le] at h
  refine ⟨?_, ?_, ?_, ?_, ?_, ?_, ?_⟩ <;> rintro rfl <;> simp at h

theorem number_neutral {n : Bytes} (h : IsNumber n) : ∀ c ∈ n, Neutral c := by
  obtain ⟨m, i, f, e, hm, hi, hf, he, rfl⟩ := h
  intro c hc
  simp only [List.mem_append] at hc
  rcases hc with hc | hc | hc | hc
  · rcases hm with rfl | rfl
    · simp at hc
    · simp at hc; subst hc; simp [Neutral]
  · exact dig_neutral ((isInt_digits hi).2 c hc)
  · rcases hf with rfl | ⟨ds, hds, rfl⟩
    · simp at hc
    · rcases List.mem_cons.1 hc with rfl | hc
      · simp [Neutral]
      · exact dig_neutral (hds.2 c hc)
  · rcases he with rfl | ⟨x, sg, ds, hx, hs, hds, rfl⟩
    · simp at hc
    · rcases List.mem_cons.1 hc with rfl | hc
      · rcases hx with rfl | rfl <;> simp [Neutral]
      · rcases List.mem_append.1 hc with hc | hc
        · rcases hs with rfl | rfl | rfl
          · simp at hc
          · simp at hc; subst hc; simp [Neutral]
          · simp at hc; subst hc; simp [Neutral]
        · exact dig_neutral (hds.2 c hc)

theorem brLoop_string {k : Brackets} (p s cnt : Nat) {b : Bytes} (hb : IsStrBody b)
    (cs : Bytes) : brLoop k p s cnt (chQuote :: (b ++ chQuote :: cs)) = brLoop k p s cnt cs := by
  rw [brLoop]
  simp only [show (0x22 : UInt8) ≠ 0x5C by decide, if_false, if_true]
  split
  · rename_i h; rw [memSkipStr_body hb] at h; simp at h
  · rename_i h; rw [memSkipStr_body hb] at h; simp at h; rw [h.2]

theorem brLoop_comma {k : Brackets} (p s cnt : Nat) (cs : Bytes) :
    brLoop k p s cnt (chComma :: cs)
      = brLoop k p s (cnt + if p = 1 ∧ s = 0 then 1 else 0) cs := by
  rw [brLoop]
  simp only [show (0x2C : UInt8) ≠ 0x5C by decide, show (0x2C : UInt8) ≠ 0x22 by decide, if_false, if_true]
  congr 1
  split <;> rfl

theorem inc32_eq {n : Nat} (h : n + 1 < 4294967296) : inc32 n = n + 1 := by
  unfold inc32; omega
theorem dec32_succ {n : Nat} (h : n + 1 < 4294967296) : dec32 (n + 1) = n := by
  unfold dec32; omega

theorem brLoop_primL {k : Brackets} (hk : IsBr k) (p s cnt : Nat) (cs : Bytes) :
    brLoop k p s cnt (k.primLeft :: cs) = brLoop k (inc32 p) s cnt cs := by
  rw [brLoop]
  rcases hk with rfl | rfl <;> simp [arrBr, objBr]

theorem brLoop_primR {k : Brackets} (hk : IsBr k) (p s cnt : Nat) (cs : Bytes) :
    brLoop k p s cnt (k.primRight :: cs) =
      if dec32 p = 0 then (do ensure (s == 0) .invalidBracketing; .ok (cnt, cs))
      else brLoop k (dec32 p) s cnt cs := by
  rw [brLoop]
  rcases hk with rfl | rfl <;> simp [arrBr, objBr]

theorem brLoop_secL {k : Brackets} (hk : IsBr k) (p s cnt : Nat) (cs : Bytes) :
    brLoop k p s cnt (k.secLeft :: cs) = brLoop k p (inc32 s) cnt cs := by
  rw [brLoop]
  rcases hk with rfl | rfl <;> simp [arrBr, objBr]

theorem brLoop_secR {k : Brackets} (hk : IsBr k) (p s cnt : Nat) (cs : Bytes) :
    brLoop k p s cnt (k.secRight :: cs) = brLoop k p (dec32 s) cnt cs := by
  rw [brLoop]
  rcases hk with rfl | rfl <;> simp [arrBr, objBr]

/-- A pair of matching brackets around content that the loop passes over. -/
theorem brLoop_wrap {k : Brackets} (hk : IsBr k) (l r : UInt8)
    (hlr : (l = chLBrack ∧ r = chRBrack) ∨ (l = chLBrace ∧ r = chRBrace))
    (p s cnt : Nat) (hp : 1 ≤ p) (hp2 : p + 1 < 4294967296) (hs : s + 1 < 4294967296)
    (mid : Bytes) (rest : Bytes)
    (hmid : ∀ p' s', p' ≤ p + 1 → s' ≤ s + 1 → 1 ≤ p' → ¬ (p' = 1 ∧ s' = 0) →
      brLoop k p' s' cnt (mid ++ (r :: rest)) = brLoop k p' s' cnt (r :: rest)) :
    brLoop k p s cnt (l :: (mid ++ (r :: rest))) = brLoop k p s cnt rest := by
  have prim : l = k.primLeft → r = k.primRight →
      brLoop k p s cnt (l :: (mid ++ (r :: rest))) = brLoop k p s cnt rest := by
    rintro rfl rfl
    rw [brLoop_primL hk, inc32_eq hp2, hmid (p + 1) s (by omega) (by omega) (by omega) (by omega),
      brLoop_primR hk, dec32_succ hp2, if_neg (by omega)]
  have sec : l = k.secLeft → r = k.secRight →
      brLoop k p s cnt (l :: (mid ++ (r :: rest))) = brLoop k p s cnt rest := by
    rintro rfl rfl
    rw [brLoop_secL hk, inc32_eq hs, hmid p (s + 1) (by omega) (by omega) (by omega) (by omega),
      brLoop_secR hk, dec32_succ hs]
  rcases hk with rfl | rfl <;> rcases hlr with ⟨rfl, rfl⟩ | ⟨rfl, rfl⟩
  · exact prim rfl rfl
  · exact sec rfl rfl
  · exact sec rfl rfl
  · exact prim rfl rfl

/-- What stands in front of a closing bracket is passed over; a comma counts at the top level only. -/
theorem brLoop_tail {k : Brackets} (hk : IsBr k) {tc : Bool} {w : Bytes} (hw : IsTail tc w) (p s cnt : Nat)
    (rest : Bytes) :
    brLoop k p s cnt (w ++ rest) = brLoop k p s (cnt + if p = 1 ∧ s = 0 then w.count chComma else 0) rest := by
  have hz : ∀ u : Bytes, IsWs u → u.count chComma = 0 := by
    intro u hu
    rw [List.count_eq_zero]
    intro hm
    exact (ws_neutral hu _ hm).2.2.1 rfl
  rcases hw with hw | ⟨_, w₁, w₂, h1, h2, rfl⟩
  · rw [brLoop_neutral hk p s cnt w _ (ws_neutral hw), hz w hw]
    simp
  · simp only [List.append_assoc, List.cons_append]
    rw [brLoop_neutral hk p s cnt w₁ _ (ws_neutral h1), brLoop_comma,
      brLoop_neutral hk p s _ w₂ _ (ws_neutral h2)]
    simp [hz w₁ h1, hz w₂ h2]

mutual
/-- Inside a container the loop passes over a whole value and returns to the same counters. -/
theorem brLoop_val {k : Brackets} (hk : IsBr k) {tc : Bool} (v : JVal) (hv : v.WFt tc) (p s cnt : Nat) (rest : Bytes)
    (hp : 1 ≤ p) (hp2 : p + v.depth < 4294967296) (hs : s + v.depth < 4294967296) :
    brLoop k p s cnt (v.text ++ rest) = brLoop k p s cnt rest := by
  match v with
  | .null => exact brLoop_neutral hk p s cnt [0x6E, 0x75, 0x6C, 0x6C] rest (by simp [Neutral])
  | .tru => exact brLoop_neutral hk p s cnt [0x74, 0x72, 0x75, 0x65] rest (by simp [Neutral])
  | .fls => exact brLoop_neutral hk p s cnt [0x66, 0x61, 0x6C, 0x73, 0x65] rest (by simp [Neutral])
  | .num t => exact brLoop_neutral hk p s cnt t rest (number_neutral (by simpa [JVal.WFt] using hv))
  | .str b =>
    have hb : IsStrBody b := by simpa [JVal.WFt] using hv
    simp only [JVal.text, List.cons_append, List.append_assoc, List.nil_append]
    exact brLoop_string p s cnt hb rest
  | .arr w .nil =>
    simp only [JVal.depth, JElems.depth] at hp2 hs
    simp only [JVal.text, List.cons_append, List.append_assoc, List.nil_append]
    refine brLoop_wrap hk _ _ (Or.inl ⟨rfl, rfl⟩) p s cnt hp (by omega) (by omega) w rest ?_
    intro p' s' _ _ _ h₄
    rw [brLoop_tail hk (by simp only [JVal.WFt] at hv; exact hv.1)]
    simp [h₄]
  | .arr w (.cons pre x post tl) =>
    simp only [JVal.WFt, JElems.WFt] at hv
    simp only [JVal.depth, JElems.depth] at hp2 hs
    simp only [JVal.text, List.cons_append, List.append_assoc, List.nil_append]
    have := brLoop_wrap hk 0x5B 0x5D (Or.inl ⟨rfl, rfl⟩) p s cnt hp (by omega) (by omega)
      (pre ++ (x.text ++ (post ++ (tl.text ++ w)))) rest ?_
    · simpa using this
    · intro p' s' h₁ h₂ h₃ h₄
      simp only [List.append_assoc]
      rw [brLoop_neutral hk p' s' cnt pre _ (ws_neutral hv.2.1),
        brLoop_val hk x hv.2.2.1 p' s' cnt _ h₃ (by omega) (by omega),
        brLoop_neutral hk p' s' cnt post _ (ws_neutral hv.2.2.2.1),
        brLoop_elems hk tl hv.2.2.2.2 p' s' cnt _ h₃ (by omega) (by omega), brLoop_tail hk hv.1]
      simp [h₄]
  | .obj w .nil =>
    simp only [JVal.depth, JMems.depth] at hp2 hs
    simp only [JVal.text, List.cons_append, List.append_assoc, List.nil_append]
    refine brLoop_wrap hk _ _ (Or.inr ⟨rfl, rfl⟩) p s cnt hp (by omega) (by omega) w rest ?_
    intro p' s' _ _ _ h₄
    rw [brLoop_tail hk (by simp only [JVal.WFt] at hv; exact hv.1)]
    simp [h₄]
  | .obj w (.cons pre n pc qc x post tl) =>
    simp only [JVal.WFt, JMems.WFt] at hv
    obtain ⟨hw, hpre, hn, hpc, hqc, hx, hpost, htl⟩ := hv
    simp only [JVal.depth, JMems.depth] at hp2 hs
    simp only [JVal.text, List.cons_append, List.append_assoc, List.nil_append]
    have := brLoop_wrap hk 0x7B 0x7D (Or.inr ⟨rfl, rfl⟩) p s cnt hp (by omega) (by omega)
      (pre ++ (0x22 :: (n ++ (0x22 :: (pc ++ (0x3A :: (qc ++ (x.text ++ (post ++ (tl.text ++ w)))))))))) rest ?_
    · simpa using this
    · intro p' s' h₁ h₂ h₃ h₄
      simp only [List.append_assoc, List.cons_append]
      rw [brLoop_neutral hk p' s' cnt pre _ (ws_neutral hpre),
        brLoop_string p' s' cnt hn,
        brLoop_neutral hk p' s' cnt pc _ (ws_neutral hpc),
        brLoop_neutral1 hk p' s' cnt _ (by simp [Neutral]),
        brLoop_neutral hk p' s' cnt qc _ (ws_neutral hqc),
        brLoop_val hk x hx p' s' cnt _ h₃ (by omega) (by omega),
        brLoop_neutral hk p' s' cnt post _ (ws_neutral hpost),
        brLoop_mems hk tl htl p' s' cnt _ h₃ (by omega) (by omega), brLoop_tail hk hw]
      simp [h₄]
/-- The loop passes over the remaining elements, counting their commas at the top level only. -/
theorem brLoop_elems {k : Brackets} (hk : IsBr k) {tc : Bool} (es : JElems) (hv : es.WFt tc) (p s cnt : Nat) (rest : Bytes)
    (hp : 1 ≤ p) (hp2 : p + es.depth < 4294967296) (hs : s + es.depth < 4294967296) :
    brLoop k p s cnt (es.text ++ rest)
      = brLoop k p s (cnt + if p = 1 ∧ s = 0 then es.length else 0) rest := by
  match es with
  | .nil => simp [JElems.text, JElems.length]
  | .cons pre x post tl =>
    simp only [JElems.WFt] at hv
    simp only [JElems.depth] at hp2 hs
    simp only [JElems.text, List.cons_append, List.append_assoc]
    rw [brLoop_comma, brLoop_neutral hk p s _ pre _ (ws_neutral hv.1),
      brLoop_val hk x hv.2.1 p s _ _ hp (by omega) (by omega),
      brLoop_neutral hk p s _ post _ (ws_neutral hv.2.2.1),
      brLoop_elems hk tl hv.2.2.2 p s _ _ hp (by omega) (by omega)]
    congr 1
    simp only [JElems.length]
    split <;> omega
/-- The loop passes over the remaining members, counting their commas at the top level only. -/
theorem brLoop_mems {k : Brackets} (hk : IsBr k) {tc : Bool} (ms : JMems) (hv : ms.WFt tc) (p s cnt : Nat) (rest : Bytes)
    (hp : 1 ≤ p) (hp2 : p + ms.depth < 4294967296) (hs : s + ms.depth < 4294967296) :
    brLoop k p s cnt (ms.text ++ rest)
      = brLoop k p s (cnt + if p = 1 ∧ s = 0 then ms.length else 0) rest := by
  match ms with
  | .nil => simp [JMems.text, JMems.length]
  | .cons pre n pc qc x post tl =>
    simp only [JMems.WFt] at hv
    obtain ⟨hpre, hn, hpc, hqc, hx, hpost, htl⟩ := hv
    simp only [JMems.depth] at hp2 hs
    simp only [JMems.text, List.cons_append, List.append_assoc]
    rw [brLoop_comma, brLoop_neutral hk p s _ pre _ (ws_neutral hpre),
      brLoop_string p s _ hn,
      brLoop_neutral hk p s _ pc _ (ws_neutral hpc),
      brLoop_neutral1 hk p s _ _ (by simp [Neutral]),
      brLoop_neutral hk p s _ qc _ (ws_neutral hqc),
      brLoop_val hk x hx p s _ _ hp (by omega) (by omega),
      brLoop_neutral hk p s _ post _ (ws_neutral hpost),
      brLoop_mems hk tl htl p s _ _ hp (by omega) (by omega)]
    congr 1
    simp only [JMems.length]
    split <;> omega
end

end Verif
