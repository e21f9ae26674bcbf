import Verif.Proof.SkipSafe

/-!
# Unchecked skipping agrees with checked skipping whenever the latter succeeds with input left
-/

namespace Verif

/-- The unchecked configuration. -/
def unchecked (cfg : Cfg) : Cfg := { cfg with checked := false }

theorem nqScan_of_excl {off slow : Nat} {bs : Bytes} {r : Nat × Nat}
    (h : nqScanExcl off slow bs = .ok r) : nqScan off slow bs = some r := by
  fun_induction nqScanExcl off slow bs <;> rw [nqScan.eq_def] <;> simp_all

theorem parseNq_unchecked {cfg : Cfg} (hc : cfg.checked = true) {bs : Bytes} {r : Nat × Nat}
    (h : parseNq cfg bs = .ok r) : parseNq (unchecked cfg) bs = .ok r := by
  simp only [parseNq, hc, if_true, unchecked, parseNqUncheck_eq] at h ⊢
  cases hx : cfg.exclSpecial
  · rw [hx, parseNqCheck_false] at h
    split at h
    · rename_i h2; simp at h; subst h; simpa using nqScanUnchecked_of_some h2
    · simp at h
  · simp only [hx, parseNqCheck, if_true] at h
    simpa using nqScanUnchecked_of_some (nqScan_of_excl h)

theorem skipString_unchecked {cfg : Cfg} (hc : cfg.checked = true) {kq : Bool} {bs : Bytes}
    {r : Range × Bytes} (h : skipString cfg kq bs = .ok r) : skipString (unchecked cfg) kq bs = .ok r := by
  unfold skipString at h ⊢
  split at h
  · exact h
  · simp only [Res.bind_eq_ok] at h ⊢
    obtain ⟨u, h1, u', h2, q, h3, h4⟩ := h
    refine ⟨u, h1, u', rfl, q, ?_, h4⟩
    simp only [skipStringNq, Res.bind_eq_ok] at h3 ⊢
    obtain ⟨n, h5, h6⟩ := h3
    exact ⟨n, parseNq_unchecked hc h5, h6⟩

theorem skipBracketed_unchecked {cfg : Cfg} (hc : cfg.checked = true) {k : Brackets} {b : UInt8} {bs : Bytes}
    {r : Range} {x : UInt8} {rest : Bytes} (h : skipBracketed cfg k (b :: bs) = .ok (r, x :: rest)) :
    skipBracketed (unchecked cfg) k (b :: bs) = .ok (r, x :: rest) := by
  unfold skipBracketed at h ⊢
  simp only [hc, if_true, unchecked, skipBracketedChecked, skipBracketedUnchecked, Res.bind_eq_ok] at h ⊢
  obtain ⟨⟨n, q⟩, h1, h2⟩ := h
  simp at h2
  obtain ⟨h2, h3⟩ := h2
  subst h3
  have := brLoopUnchecked_of_checked h1
  simp only [Bool.false_eq_true, if_false, Res.bind_eq_ok]
  exact ⟨_, this, by simp [← h2]⟩

theorem endOfLiteral_unchecked {cfg : Cfg} (hc : cfg.checked = true) {e : Err} {bs : Bytes} {x : UInt8}
    {rest : Bytes} (h : endOfLiteral cfg e bs = .ok (x :: rest)) :
    endOfLiteral (unchecked cfg) e bs = .ok (x :: rest) := by
  simp only [endOfLiteral, trim, hc, if_true, unchecked, Res.bind_eq_ok] at h ⊢
  obtain ⟨b, hb, u, _, h⟩ := h
  simp at h hb; subst h
  refine ⟨x :: rest, ?_, (), rfl, rfl⟩
  simpa using trimUnchecked_of_checked hb

theorem eatLiteral_unchecked {cfg : Cfg} (hc : cfg.checked = true) {e : Err} {tl : Bytes} {c : UInt8} {bs : Bytes}
    {r : Bytes} (h : eatLiteral cfg e tl (c :: bs) = .ok r) :
    eatLiteral (unchecked cfg) e tl (c :: bs) = .ok r := by
  simp only [eatLiteral, hc, if_true, unchecked] at h ⊢
  split at h
  · rename_i hp
    simp at h
    have hle : tl.length ≤ bs.length := by
      have := List.isPrefixOf_iff_prefix.1 hp
      simpa using this.length_le
    simp [hle, h]
  · simp at h

theorem skipTrue_unchecked {cfg : Cfg} (hc : cfg.checked = true) {c : UInt8} {bs : Bytes}
    {r : Range} {x : UInt8} {rest : Bytes} (h : skipTrue cfg (c :: bs) = .ok (r, x :: rest)) :
    skipTrue (unchecked cfg) (c :: bs) = .ok (r, x :: rest) := by
  simp only [skipTrue, Res.bind_eq_ok] at h ⊢
  obtain ⟨a, h1, b, h2, h3⟩ := h
  simp at h3
  obtain ⟨h3, rfl⟩ := h3
  exact ⟨a, eatLiteral_unchecked hc h1, _, endOfLiteral_unchecked hc h2, by simp [h3]⟩

theorem skipFalse_unchecked {cfg : Cfg} (hc : cfg.checked = true) {c : UInt8} {bs : Bytes}
    {r : Range} {x : UInt8} {rest : Bytes} (h : skipFalse cfg (c :: bs) = .ok (r, x :: rest)) :
    skipFalse (unchecked cfg) (c :: bs) = .ok (r, x :: rest) := by
  simp only [skipFalse, Res.bind_eq_ok] at h ⊢
  obtain ⟨a, h1, b, h2, h3⟩ := h
  simp at h3
  obtain ⟨h3, rfl⟩ := h3
  exact ⟨a, eatLiteral_unchecked hc h1, _, endOfLiteral_unchecked hc h2, by simp [h3]⟩

theorem skipNull_unchecked {cfg : Cfg} (hc : cfg.checked = true) {c : UInt8} {bs : Bytes}
    {r : Range} {x : UInt8} {rest : Bytes} (h : skipNull cfg (c :: bs) = .ok (r, x :: rest)) :
    skipNull (unchecked cfg) (c :: bs) = .ok (r, x :: rest) := by
  simp only [skipNull, Res.bind_eq_ok] at h ⊢
  obtain ⟨a, h1, u, _, b, h2, h3⟩ := h
  simp at h3
  obtain ⟨h3, rfl⟩ := h3
  exact ⟨a, eatLiteral_unchecked hc h1, (), rfl, _, endOfLiteral_unchecked hc h2, by simp [h3]⟩

theorem skipDigitsUnchecked_of {bs : Bytes} {x : UInt8} {rest : Bytes} (h : skipDigits bs = x :: rest) :
    skipDigitsUnchecked bs = .ok (x :: rest) := by
  induction bs with
  | nil => simp [skipDigits] at h
  | cons c cs ih =>
    rw [skipDigits] at h
    rw [skipDigitsUnchecked]
    split at h
    · rename_i hd; simp [hd, ih h]
    · rename_i hd; simp [hd, h]

theorem skipDigitsIf_unchecked {cfg : Cfg} (hc : cfg.checked = true) {bs r : Bytes} (hr : r ≠ [])
    (h : skipDigitsIf cfg bs = .ok r) : skipDigitsIf (unchecked cfg) bs = .ok r := by
  simp only [skipDigitsIf, hc, if_true, unchecked] at h ⊢
  split at h
  · rename_i he; simp [he, h]
  · rename_i he
    simp at h
    cases r with
    | nil => exact absurd rfl hr
    | cons x rest => simp [he, skipDigitsUnchecked_of h]

theorem ne_nil_of_suffix {a b : Bytes} (h : a <:+ b) (ha : a ≠ []) : b ≠ [] := by
  rintro rfl
  exact ha (List.suffix_nil.1 h)

theorem skipFrac_unchecked {cfg : Cfg} (hc : cfg.checked = true) {bs : Bytes} {r : Bytes × Bool} (hr : r.1 ≠ [])
    (h : skipFrac cfg bs = .ok r) : skipFrac (unchecked cfg) bs = .ok r := by
  have hbs := ne_nil_of_suffix (skipFrac_suffix h) hr
  unfold skipFrac at h ⊢
  split at h
  · exact absurd rfl hbs
  · split at h
    · rename_i hd
      simp only [hd, if_true, Res.bind_eq_ok] at h ⊢
      obtain ⟨b, h1, h2⟩ := h
      simp at h2; subst h2
      exact ⟨b, skipDigitsIf_unchecked hc hr h1, rfl⟩
    · rename_i hd; simp [hd]; simpa using h

theorem skipExp_unchecked {cfg : Cfg} (hc : cfg.checked = true) {bs : Bytes} {r : Bytes × Bool} (hr : r.1 ≠ [])
    (h : skipExp cfg bs = .ok r) : skipExp (unchecked cfg) bs = .ok r := by
  unfold skipExp at h ⊢
  split at h
  · exact h
  · split at h
    · rename_i hd
      simp only [hd, if_true, Res.bind_eq_ok] at h ⊢
      obtain ⟨u, _, s, h1, u', _, b, h2, h3⟩ := h
      simp at h3; subst h3
      exact ⟨(), rfl, s, h1, (), rfl, b, skipDigitsIf_unchecked hc hr h2, rfl⟩
    · rename_i hd; simp only [hd, if_false]; exact h

theorem skipNumber_unchecked {cfg : Cfg} (hc : cfg.checked = true) {bs : Bytes}
    {r : Range} {x : UInt8} {rest : Bytes} (h : skipNumber cfg bs = .ok (r, x :: rest)) :
    skipNumber (unchecked cfg) bs = .ok (r, x :: rest) := by
  simp only [skipNumber, Res.bind_eq_ok] at h ⊢
  obtain ⟨_, _, c, h1, b₂, h2, ⟨b₃, d⟩, h3, ⟨b₄, e⟩, h4, h5⟩ := h
  simp only [Res.ok.injEq, Prod.mk.injEq] at h5
  obtain ⟨h5, rfl⟩ := h5
  have hb4 : (x :: rest) ≠ [] := by simp
  have hb3 := ne_nil_of_suffix (skipExp_suffix h4) hb4
  have hb2 := ne_nil_of_suffix (skipFrac_suffix h3) hb3
  exact ⟨(), rfl, c, h1, b₂, skipDigitsIf_unchecked hc hb2 h2, _, skipFrac_unchecked hc hb3 h3, _,
    skipExp_unchecked hc hb4 h4, by simp [← h5]⟩

theorem skipValue_unchecked {cfg : Cfg} (hc : cfg.checked = true) {kq : Bool} {bs : Bytes}
    {r : Range} {x : UInt8} {rest : Bytes} (h : skipValue cfg kq bs = .ok (r, x :: rest)) :
    skipValue (unchecked cfg) kq bs = .ok (r, x :: rest) := by
  unfold skipValue at h ⊢
  rw [Res.bind_eq_ok] at h ⊢
  obtain ⟨_, _, h⟩ := h
  refine ⟨(), rfl, ?_⟩
  cases bs with
  | nil => simp at h
  | cons c cs =>
    simp only [deref_cons, Res.ok_bind] at h ⊢
    split at h; · rename_i g; rw [if_pos g]; exact skipString_unchecked hc h
    rename_i g; rw [if_neg g]; clear g
    split at h; · rename_i g; rw [if_pos g]; exact skipBracketed_unchecked hc h
    rename_i g; rw [if_neg g]; clear g
    split at h; · rename_i g; rw [if_pos g]; exact skipBracketed_unchecked hc h
    rename_i g; rw [if_neg g]; clear g
    split at h; · rename_i g; rw [if_pos g]; exact skipTrue_unchecked hc h
    rename_i g; rw [if_neg g]; clear g
    split at h; · rename_i g; rw [if_pos g]; exact skipFalse_unchecked hc h
    rename_i g; rw [if_neg g]; clear g
    split at h; · rename_i g; rw [if_pos g]; exact skipNull_unchecked hc h
    rename_i g; rw [if_neg g]; clear g
    split at h; · rename_i g; rw [if_pos g]; exact skipNumber_unchecked hc h
    simp at h

end Verif
