import Verif.Proof.SkipAgree

/-!
# What the bracket counters of `skip_bracketed_item_checked` establish
-/

namespace Verif.Spec

/-- The bytes of a text that are not inside a string (`inStr` tells whether the text starts inside one).
The byte after a backslash is passed over in both situations. -/
def outside (inStr : Bool) : Verif.Bytes → Verif.Bytes
  | [] => []
  | [c] => if inStr then [] else if c = 0x22 ∨ c = 0x5C then [] else [c]
  | c :: d :: cs =>
    if c = 0x5C then outside inStr cs
    else if c = 0x22 then outside (!inStr) (d :: cs)
    else if inStr then outside inStr (d :: cs) else c :: outside inStr (d :: cs)

end Verif.Spec

namespace Verif

open Spec

theorem outside_bslash (b : Bool) (d : UInt8) (cs : Bytes) :
    outside b (chBslash :: d :: cs) = outside b cs := by
  rw [outside]; simp

theorem outside_quote (b : Bool) (cs : Bytes) : outside b (chQuote :: cs) = outside (!b) cs := by
  cases cs with
  | nil => cases b <;> simp [outside]
  | cons d cs => rw [outside]; simp

theorem outside_in {c : UInt8} (cs : Bytes) (h₁ : c ≠ chQuote) (h₂ : c ≠ chBslash) :
    outside true (c :: cs) = outside true cs := by
  cases cs with
  | nil => simp [outside]
  | cons d cs => rw [outside]; simp [h₁, h₂]

theorem outside_out {c : UInt8} (cs : Bytes) (h₁ : c ≠ chQuote) (h₂ : c ≠ chBslash) :
    outside false (c :: cs) = c :: outside false cs := by
  cases cs with
  | nil => simp [outside, h₁, h₂]
  | cons d cs => rw [outside]; simp [h₁, h₂]

theorem memSkipStr_outside {bs cs : Bytes} {x : UInt8} (h : memSkipStr bs = x :: cs) :
    ∃ body, bs = body ++ x :: cs ∧ ∀ t, outside true (body ++ x :: t) = outside false t := by
  fun_induction memSkipStr bs with
  | case1 => simp at h
  | case2 cs => simp at h; obtain ⟨rfl, rfl⟩ := h; exact ⟨[], rfl, fun t => by simp [outside_quote]⟩
  | case3 => simp at h
  | case4 d cs _ ih =>
    obtain ⟨body, rfl, hb⟩ := ih h
    exact ⟨chBslash :: d :: body, rfl, fun t => by simp [outside_bslash, hb]⟩
  | case5 c cs h1 h2 ih =>
    obtain ⟨body, rfl, hb⟩ := ih h
    exact ⟨c :: body, rfl, fun t => by simp [outside_in _ h1 h2, hb]⟩

/-- Bracket counting, modulo the 32 bit counters. -/
theorem brLoop_counts {k : Brackets} (hk : IsBr k) {p s cnt n : Nat} {bs rest : Bytes}
    (hp : p < 4294967296) (hs : s < 4294967296)
    (h : brLoop k p s cnt bs = .ok (n, rest)) :
    ∃ pre, bs = pre ++ rest ∧
      (p + (outside false pre).count k.primLeft) % 4294967296
        = (outside false pre).count k.primRight % 4294967296 ∧
      (s + (outside false pre).count k.secLeft) % 4294967296
        = (outside false pre).count k.secRight % 4294967296 := by
  have hlt : ∀ n, inc32 n < 4294967296 := fun n => Nat.mod_lt _ (by decide)
  have hlt' : ∀ n, dec32 n < 4294967296 := fun n => Nat.mod_lt _ (by decide)
  have hd : k.primLeft ≠ k.primRight ∧ k.primLeft ≠ k.secLeft ∧ k.primLeft ≠ k.secRight ∧
      k.primRight ≠ k.secLeft ∧ k.primRight ≠ k.secRight ∧ k.secLeft ≠ k.secRight ∧
      k.primLeft ≠ chComma ∧ k.primRight ≠ chComma ∧ k.secLeft ≠ chComma ∧ k.secRight ≠ chComma := by
    rcases hk with rfl | rfl <;> decide
  obtain ⟨d1, d2, d3, d4, d5, d6, d7, d8, d9, d10⟩ := hd
  fun_induction brLoop k p s cnt bs with
  | case1 p s cnt =>
    rw [Res.bind_eq_ok] at h
    obtain ⟨_, he, h⟩ := h
    rw [ensure_eq_ok] at he
    simp at he h
    refine ⟨[], by simp [h], ?_⟩
    simp [outside, he]
  | case2 p s cnt cs ih =>
    cases cs with
    | nil =>
      obtain ⟨pre, h1, h2, h3⟩ := ih hp hs h
      simp at h1
      obtain ⟨rfl, rfl⟩ := h1
      exact ⟨[chBslash], by simp, by simpa [outside] using h2, by simpa [outside] using h3⟩
    | cons d ds =>
      obtain ⟨pre, h1, h2, h3⟩ := ih hp hs h
      simp at h1; subst h1
      exact ⟨chBslash :: d :: pre, rfl, by simpa [outside_bslash] using h2,
        by simpa [outside_bslash] using h3⟩
  | case3 => simp at h
  | case4 p s cnt cs x cs' hm _ ih =>
    obtain ⟨pre, rfl, h2, h3⟩ := ih hp hs h
    obtain ⟨body, rfl, hb⟩ := memSkipStr_outside hm
    refine ⟨chQuote :: (body ++ x :: pre), by simp, ?_⟩
    simpa [outside_quote, hb] using ⟨h2, h3⟩
  | case5 p s cnt cs g1 g2 ih =>
    obtain ⟨pre, rfl, h2, h3⟩ := ih hp hs h
    refine ⟨chComma :: pre, rfl, ?_⟩
    rw [outside_out _ (by decide) (by decide)]
    simp only [List.count_cons_of_ne d7.symm, List.count_cons_of_ne d8.symm, List.count_cons_of_ne d9.symm,
      List.count_cons_of_ne d10.symm]
    exact ⟨h2, h3⟩
  | case6 p s cnt cs g1 g2 g3 ih =>
    obtain ⟨pre, rfl, h2, h3⟩ := ih (hlt _) hs h
    refine ⟨k.primLeft :: pre, rfl, ?_⟩
    rw [outside_out _ g2 g1]
    simp only [List.count_cons_self, List.count_cons_of_ne d1, List.count_cons_of_ne d2,
      List.count_cons_of_ne d3]
    unfold inc32 at h2
    exact ⟨by omega, h3⟩
  | case7 p s cnt cs g5 g1 g2 g3 g4 =>
    rw [Res.bind_eq_ok] at h
    obtain ⟨_, he, h⟩ := h
    rw [ensure_eq_ok] at he
    simp at he h
    refine ⟨[k.primRight], by simp [h], ?_⟩
    rw [outside_out _ g2 g1]
    simp only [List.count_cons_self, List.count_cons_of_ne d1.symm, List.count_cons_of_ne d4,
      List.count_cons_of_ne d5, outside, List.count_nil]
    unfold dec32 at g5
    exact ⟨by omega, by omega⟩
  | case8 p s cnt cs g5 g1 g2 g3 g4 ih =>
    obtain ⟨pre, rfl, h2, h3⟩ := ih (hlt' _) hs h
    refine ⟨k.primRight :: pre, rfl, ?_⟩
    rw [outside_out _ g2 g1]
    simp only [List.count_cons_self, List.count_cons_of_ne d1.symm, List.count_cons_of_ne d4,
      List.count_cons_of_ne d5]
    unfold dec32 at h2
    exact ⟨by omega, h3⟩
  | case9 p s cnt cs g1 g2 g3 g4 g5 ih =>
    obtain ⟨pre, rfl, h2, h3⟩ := ih hp (hlt _) h
    refine ⟨k.secLeft :: pre, rfl, ?_⟩
    rw [outside_out _ g2 g1]
    simp only [List.count_cons_self, List.count_cons_of_ne d2.symm, List.count_cons_of_ne d4.symm,
      List.count_cons_of_ne d6]
    unfold inc32 at h3
    exact ⟨h2, by omega⟩
  | case10 p s cnt cs g1 g2 g3 g4 g5 g6 ih =>
    obtain ⟨pre, rfl, h2, h3⟩ := ih hp (hlt' _) h
    refine ⟨k.secRight :: pre, rfl, ?_⟩
    rw [outside_out _ g2 g1]
    simp only [List.count_cons_self, List.count_cons_of_ne d3.symm, List.count_cons_of_ne d5.symm,
      List.count_cons_of_ne d6.symm]
    unfold dec32 at h3
    exact ⟨h2, by omega⟩
  | case11 p s cnt c cs g1 g2 g3 g4 g5 g6 g7 ih =>
    obtain ⟨pre, rfl, h2, h3⟩ := ih hp hs h
    refine ⟨c :: pre, rfl, ?_⟩
    rw [outside_out _ g2 g1]
    simp only [List.count_cons_of_ne g4, List.count_cons_of_ne g5, List.count_cons_of_ne g6,
      List.count_cons_of_ne g7]
    exact ⟨h2, h3⟩

theorem skipBracketed_counts {k : Brackets} (hk : IsBr k) {cs : Bytes} {r : Range × Bytes}
    (h : skipBracketedChecked k (k.primLeft :: cs) = .ok r) :
    k.primLeft :: cs = r.1.text ++ r.2 ∧
      (outside false r.1.text).count k.primLeft % 4294967296
        = (outside false r.1.text).count k.primRight % 4294967296 ∧
      (outside false r.1.text).count k.secLeft % 4294967296
        = (outside false r.1.text).count k.secRight % 4294967296 := by
  simp only [skipBracketedChecked, if_true, Res.bind_eq_ok] at h
  obtain ⟨⟨n, rest⟩, h1, h2⟩ := h
  obtain ⟨pre, rfl, h3, h4⟩ := brLoop_counts hk (by decide) (by decide) h1
  have ht : (k.primLeft :: (pre ++ rest)).take ((k.primLeft :: (pre ++ rest)).length - rest.length)
      = k.primLeft :: pre := by
    rw [show k.primLeft :: (pre ++ rest) = (k.primLeft :: pre) ++ rest by rfl, List.take_left']
    simp; omega
  simp only [ht] at h2
  simp at h2
  subst h2
  have hd : k.primLeft ≠ k.primRight ∧ k.primLeft ≠ k.secLeft ∧ k.primLeft ≠ k.secRight ∧
      k.primLeft ≠ chQuote ∧ k.primLeft ≠ chBslash := by
    rcases hk with rfl | rfl <;> decide
  obtain ⟨d1, d2, d3, d4, d5⟩ := hd
  refine ⟨by simp, ?_⟩
  rw [outside_out _ d4 d5]
  simp only [List.count_cons_self, List.count_cons_of_ne d1, List.count_cons_of_ne d2,
    List.count_cons_of_ne d3]
  exact ⟨by omega, by omega⟩

/-- Opening brackets only move the counter, with wrap-around. -/
theorem brLoop_open {k : Brackets} (hk : IsBr k) (m p s cnt : Nat) (c : Bytes) (hp : p < 4294967296) :
    brLoop k p s cnt (List.replicate m k.primLeft ++ c)
      = brLoop k ((p + m) % 4294967296) s cnt c := by
  induction m generalizing p with
  | zero => simp [Nat.mod_eq_of_lt hp]
  | succ m ih =>
    rw [List.replicate_succ, List.cons_append, brLoop_primL hk, ih (inc32 p) (Nat.mod_lt _ (by decide))]
    unfold inc32
    congr 1
    omega

end Verif
