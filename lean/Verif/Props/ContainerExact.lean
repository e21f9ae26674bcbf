import Verif.Props.Container

/-!
# Property C102 on every text

What an array of fixed size accepts, for any parser of the elements.
-/

namespace Verif

/-- Without the whitespace (as the library sees it) in front of it `b` is `r`. -/
def Spec.StripsTo (b r : Bytes) : Prop := ∃ s, (∀ c ∈ s, 1 ≤ c.toNat ∧ c.toNat ≤ 32) ∧ b = s ++ r ∧ ∀ c cs, r = c :: cs → ¬ (1 ≤ c.toNat ∧ c.toNat ≤ 32)

/-- Up to `n` elements, the first of which stands in front: all of them are there, each followed by a comma and a further element, or the last one is
followed by the end of the array, perhaps with a comma in front, and the rest is default.  `p` tells the value of an element and what follows. -/
inductive Spec.FixElems (p : Bytes → Res (Val × Bytes)) (dflt : Val) : Nat → Bytes → List Val → Bytes → Prop
  | full {b : Bytes} : FixElems p dflt 0 b [] b
  | more {n : Nat} {b x y z r : Bytes} {v : Val} {us : List Val} : b ≠ [] → p b = .ok (v, x) → StripsTo x (0x2C :: y) → StripsTo y z → z ≠ [] →
      z.head? ≠ some 0x5D → FixElems p dflt n z us r → FixElems p dflt (n + 1) b (v :: us) r
  | last {n : Nat} {b x k r : Bytes} {v : Val} : b ≠ [] → p b = .ok (v, x) →
      (StripsTo x (0x5D :: k) ∨ ∃ y, StripsTo x (0x2C :: y) ∧ StripsTo y (0x5D :: k)) → StripsTo k r →
      FixElems p dflt (n + 1) b (v :: List.replicate n dflt) r

open Spec

theorem stripsTo_iff {b r : Bytes} : StripsTo b r ↔ trimChecked b = r := by
  constructor
  · rintro ⟨s, h1, rfl, h2⟩
    induction s with
    | nil =>
      cases r with
      | nil => rfl
      | cons c cs =>
        have := h2 c cs rfl
        rw [← isSpace_iff, Bool.not_eq_true] at this
        exact trimChecked_cons_of_not cs this
    | cons c cs ih =>
      rw [List.cons_append, trimChecked, if_pos ((isSpace_iff c).2 (h1 c (by simp)))]
      exact ih fun c hc => h1 c (by simp [hc])
  · rintro rfl
    obtain ⟨w, h1, h2⟩ := Verif.trimChecked_split b
    refine ⟨w, fun c hc => (isSpace_iff c).1 (h2 c hc), h1, fun c cs hc => ?_⟩
    rw [← isSpace_iff, trimChecked_head hc]
    simp

/-- `operator++` in terms of the text. -/
theorem iterNext_iff {cfg : Cfg} (hck : cfg.checked = true) (x z : Bytes) :
    (iterNext cfg x = .ok (true, z) ↔ ∃ y, StripsTo x (0x2C :: y) ∧ StripsTo y z ∧ z ≠ [] ∧ z.head? ≠ some 0x5D) ∧
    (iterNext cfg x = .ok (false, z) ↔ ∃ k, (StripsTo x (0x5D :: k) ∨ ∃ y, StripsTo x (0x2C :: y) ∧ StripsTo y (0x5D :: k)) ∧ StripsTo k z) := by
  simp only [stripsTo_iff]
  unfold iterNext
  rw [trim_ck hck]
  cases htx : trimChecked x with
  | nil => simp [hck, headIs, assertWeak]
  | cons c cs =>
    have hid : trimChecked (c :: cs) = c :: cs := by rw [← htx, trimChecked_idem]
    simp only [Res.ok_bind, moveNext, hck, if_true, moveNextChecked, hid]
    by_cases h1 : c = 0x2C
    · subst h1
      cases hcs : trimChecked cs with
      | nil =>
        simp [headIs, assertWeak, hcs]
        rintro rfl h
        exact absurd rfl h
      | cons e es =>
        by_cases h2 : e = 0x5D
        · subst h2
          simp [headIs, assertWeak, hcs]
          rintro rfl _
          rfl
        · simp [headIs, assertWeak, hcs, h2]
          rintro rfl
          simp [h2]
    · by_cases h2 : c = 0x5D
      · subst h2
        simp [headIs, assertWeak]
      · have : (c == 0x2C || c == 0x5D) = false := by simp [h1, h2]
        simp [headIs, assertWeak, h1, h2, this, ensure]

theorem fixElems_iff {cfg : Cfg} (hck : cfg.checked = true) (p : Bytes → Res (Val × Bytes)) (dflt : Val) (n : Nat) (b : Bytes) (us : List Val) (r : Bytes) :
    fixElems cfg p dflt n true b = .ok (us, r) ↔ FixElems p dflt n b us r := by
  induction n generalizing b us with
  | zero =>
    simp only [fixElems, Res.ok.injEq, Prod.mk.injEq]
    constructor
    · rintro ⟨rfl, rfl⟩; exact .full
    · intro h; cases h; exact ⟨rfl, rfl⟩
  | succ n ih =>
    unfold fixElems
    simp only [Res.bind_eq_ok, Prod.exists, Res.ok.injEq, Prod.mk.injEq]
    constructor
    · rintro ⟨_, h0, v, x, h1, more, z, h2, vs, r', h3, rfl, rfl⟩
      have hb : b ≠ [] := by
        rintro rfl
        simp [hck, assertWeak] at h0
      cases more with
      | true =>
        obtain ⟨y, h4, h5, h6, h7⟩ := (iterNext_iff hck x z).1.1 h2
        exact .more hb h1 h4 h5 h6 h7 ((ih z vs).1 h3)
      | false =>
        obtain ⟨k, h4, h5⟩ := (iterNext_iff hck x z).2.1 h2
        rw [fixElems_false] at h3
        cases h3
        exact .last hb h1 h4 h5
    · intro h
      have haw : ∀ b : Bytes, b ≠ [] → assertWeak cfg.checked (!b.isEmpty) Err.unexpectedEndOfData = .ok () := by
        intro b hb
        cases b with
        | nil => exact absurd rfl hb
        | cons => simp [assertWeak]
      cases h with
      | more hb h1 h4 h5 h6 h7 h8 =>
        exact ⟨(), haw b hb, _, _, h1, _, _, (iterNext_iff hck _ _).1.2 ⟨_, h4, h5, h6, h7⟩, _, _, (ih _ _).2 h8, rfl, rfl⟩
      | last hb h1 h4 h5 =>
        exact ⟨(), haw b hb, _, _, h1, _, _, (iterNext_iff hck _ _).2.2 ⟨_, h4, h5⟩, _, _, fixElems_false cfg p dflt n _, rfl, rfl⟩

/-- **C102 on every text.**  Exactly what an array of `n` elements accepts, whatever the parser of the elements accepts: an opening bracket, then either the end of the
array, or elements with commas between them, at most `n` of which are read.  If there are more than `n`, the parser stops in front of the first that is not read. -/
theorem C102_exact (cfg : Cfg) (hck : cfg.checked = true) (hq : cfg.endQuote = false) (p : Bytes → Res (Val × Bytes)) (dflt : Val) (n : Nat) (bs : Bytes) (v : Val) (r : Bytes) :
    parseFixArr cfg p dflt n bs = .ok (v, r) ↔
      ∃ a b us, v = .arr us ∧ StripsTo bs (0x5B :: a) ∧ StripsTo a b ∧
        ((∃ k, b = 0x5D :: k ∧ StripsTo k r ∧ us = List.replicate n dflt) ∨ (b ≠ [] ∧ b.head? ≠ some 0x5D ∧ FixElems p dflt n b us r)) := by
  have hu : ∀ a : Bytes, trimUncheckedEnd cfg a = if trimChecked a = [] then .ub else .ok (trimChecked a) := by
    intro a
    induction a with
    | nil => simp [trimUncheckedEnd, trimChecked, hq]
    | cons c cs ih =>
      unfold trimUncheckedEnd trimChecked
      by_cases h : isSpace c = true
      · rw [if_pos h, if_pos h, ih]
      · simp [h]
  simp only [stripsTo_iff]
  unfold parseFixArr
  rw [trim_ck hck]
  cases htx : trimChecked bs with
  | nil => simp [hck, headIs, assertWeak]
  | cons c a =>
    by_cases h1 : c = 0x5B
    · subst h1
      simp only [Res.ok_bind, headIs, BEq.rfl, assertWeak_tt, List.tail_cons]
      obtain hta | ⟨e, k, hta⟩ : trimChecked a = [] ∨ ∃ e k, trimChecked a = e :: k := by
        cases trimChecked a <;> simp
      · simp [hu a, hta]
      · have hu' : trimUncheckedEnd cfg a = .ok (e :: k) := by rw [hu a, if_neg (by simp [hta]), hta]
        rw [hu']
        by_cases h2 : e = 0x5D
        · subst h2
          simp [hta, fixElems_false]
          exact fun _ => eq_comm
        · have : (e != 0x5D) = true := by simpa using h2
          simp only [Res.ok_bind, derefEnd_cons, this, if_neg h2, Res.bind_eq_ok, Prod.exists, fixElems_iff hck]
          constructor
          · rintro ⟨us, r', h3, h4⟩
            cases h4
            exact ⟨a, e :: k, us, rfl, rfl, hta, Or.inr ⟨by simp, by simpa using h2, h3⟩⟩
          · rintro ⟨a', b, us, rfl, h3, h4, h5⟩
            cases h3
            rw [hta] at h4
            subst h4
            rcases h5 with ⟨k', h5, -⟩ | ⟨-, -, h5⟩
            · cases h5; exact absurd rfl h2
            · exact ⟨us, r, h5, rfl⟩
    · have : (c == 0x5B) = false := by simpa using h1
      simp [headIs, assertWeak, h1, this, hck, ensure]

/-! ### Non-vacuity -/

/-- `[1, 2 ,3]` read as two integers: the parser stops in front of `3]`. -/
example : ∃ a b us, Val.arr [.int 1, .int 2] = .arr us ∧ StripsTo (asc! "[1, 2 ,3]") (0x5B :: a) ∧ StripsTo a b ∧
    ((∃ k, b = 0x5D :: k ∧ StripsTo k (asc! "3]") ∧ us = List.replicate 2 (.int 0)) ∨
      (b ≠ [] ∧ b.head? ≠ some 0x5D ∧ FixElems (parseU {} exEnv 9 (.int exI32 false)) (.int 0) 2 b us (asc! "3]"))) :=
  (C102_exact {} rfl rfl _ _ 2 _ _ _).1 (by decide +kernel)

/-- `[1 2]` is not accepted: there is no comma. -/
example (v : Val) (r : Bytes) : parseFixArr {} (parseU {} exEnv 9 (.int exI32 false)) (.int 0) 2 (asc! "[1 2]") ≠ .ok (v, r) := by
  have : parseFixArr {} (parseU {} exEnv 9 (.int exI32 false)) (.int 0) 2 (asc! "[1 2]") = .err .invalidEndOfValue := by decide +kernel
  rw [this]
  simp

end Verif
