import Verif.Proof.SkipRange
import Verif.Proof.ZeroTermSafe

/-!
# Checked parsing to typed values: no read outside of the text
-/

namespace Verif

open Spec

theorem Safe0.seq {α β : Type} {s : Bytes} {x : Res α} {f : α → Res (β × Bytes)} (h : x ≠ .ub)
    (hf : ∀ a, x = .ok a → Safe0 s (f a)) : Safe0 s (x >>= f) := by
  cases x with
  | ok a => exact hf a rfl
  | err e => exact .err _ _
  | ub => exact absurd rfl h

theorem Safe0.weakly {α : Type} {s : Bytes} {k b : Bool} {e : Err} {f : Unit → Res (α × Bytes)} (hk : k = true)
    (hf : b = true → Safe0 s (f ())) : Safe0 s (assertWeak k b e >>= f) := by
  subst hk
  cases b with
  | true => exact hf rfl
  | false => exact .err _ _

theorem Safe0.trim {α : Type} {s : Bytes} {cfg : Cfg} {b : Bytes} {f : Bytes → Res (α × Bytes)} (hk : cfg.checked = true)
    (hf : Safe0 s (f (trimChecked b))) : Safe0 s (Verif.trim cfg b >>= f) := by
  unfold Verif.trim
  rw [if_pos hk]
  exact hf

theorem Safe0.moveNext {α : Type} {s : Bytes} {cfg : Cfg} {b : Bytes} {f : Bytes → Res (α × Bytes)} (hk : cfg.checked = true)
    (hf : Safe0 s (f (moveNextChecked b))) : Safe0 s (Verif.moveNext cfg b >>= f) := by
  unfold Verif.moveNext
  rw [if_pos hk]
  exact hf

/-- What is needed of the end of the text for the kinds of types. -/
def EndOk (k : Kinds) (cfg : Cfg) (s : Bytes) : Prop :=
  (k.arrays = true → cfg.endQuote = true ∨ ¬ EndsIn chLBrack s) ∧
  (k.peeking = true → cfg.endQuote = true ∨ ¬ EndsIn chColon s) ∧
  (k.closing = true → cfg.endQuote = true)

theorem EndOk.suffix {k : Kinds} {cfg : Cfg} {s r : Bytes} (h : EndOk k cfg s) (hr : r <:+ s) : EndOk k cfg r :=
  ⟨fun hk => (h.1 hk).imp id fun h e => h (e.of_suffix hr), fun hk => (h.2.1 hk).imp id fun h e => h (e.of_suffix hr), h.2.2⟩

theorem EndOk.of_quote (k : Kinds) {cfg : Cfg} (s : Bytes) (h : cfg.endQuote = true) : EndOk k cfg s :=
  ⟨fun _ => Or.inl h, fun _ => Or.inl h, fun _ => h⟩

/-- The first byte may be looked at, if some type does so. -/
def PeekOk (k : Kinds) (cfg : Cfg) (s : Bytes) : Prop := k.peeking = true → cfg.endQuote = true ∨ s ≠ []

theorem PeekOk.ne {k : Kinds} {cfg : Cfg} {s : Bytes} (h : s ≠ []) : PeekOk k cfg s := fun _ => Or.inr h

theorem ne_of_not_isEmpty {s : Bytes} (h : (!s.isEmpty) = true) : s ≠ [] := by cases s <;> simp_all

theorem ne_of_headIs {s : Bytes} {f : UInt8 → Bool} (h : headIs f s = true) : s ≠ [] := by
  cases s with
  | nil => simp [headIs] at h
  | cons => simp

/-- Safe on every text shorter than `n` with a suitable end. -/
def SafeBelow (k : Kinds) (cfg : Cfg) (n : Nat) (p : Bytes → Res (Val × Bytes)) : Prop :=
  ∀ s, s.length < n → EndOk k cfg s → PeekOk k cfg s → Safe0 s (p s)

/-! ## Scalars -/

theorem derefEnd_ne_ub {cfg : Cfg} {s : Bytes} (h : cfg.endQuote = true ∨ s ≠ []) : derefEnd cfg s ≠ .ub := by
  cases s with
  | nil => rcases h with h | h
           · simp [derefEnd, h]
           · exact absurd rfl h
  | cons => simp

theorem eatBool_safe {cfg : Cfg} (hc : cfg.checked = true) (s : Bytes) : Safe0 s (eatBool cfg s) := by
  unfold eatBool
  rw [if_pos hc]
  split
  · exact .pure _ (List.drop_suffix _ _)
  split
  · exact .pure _ (List.drop_suffix _ _)
  · exact .err _ _

theorem parseBool_safe {cfg : Cfg} (hc : cfg.checked = true) (s : Bytes) : Safe0 s (parseBool cfg s) := by
  unfold parseBool
  refine (eatBool_safe hc s).bind fun v r _ hr => ?_
  exact .trim hc (.weakly hc fun _ => .pure _ ((trimChecked_suffix r).trans hr))

theorem unsignedNotKnown_safe {cfg : Cfg} (hc : cfg.checked = true) (bits : Nat) (rc : Bool) (s : Bytes) :
    Safe0 s (unsignedNotKnown cfg bits rc s) := by
  unfold unsignedNotKnown
  refine .weakly hc fun _ => ?_
  have h := notKnownVal_suffix s
  generalize notKnownVal s = x at h
  obtain ⟨r, b⟩ := x
  dsimp only at h ⊢
  split
  · refine .ensure fun _ => ?_
    exact .seq (narrowUnsigned_ne_ub _ _) fun v _ => .pure _ h
  · exact .pure _ h

theorem validateSignedFirst_safe {cfg : Cfg} (hc : cfg.checked = true) (s : Bytes) : Safe0 s (validateSignedFirst cfg s) := by
  unfold validateSignedFirst
  refine .weakly hc fun hs => ?_
  cases s with
  | nil => simp at hs
  | cons c cs =>
    simp only [deref_cons, Res.ok_bind, hc, if_true]
    split
    · exact .pure _ (List.suffix_cons _ _)
    split
    · exact .pure _ List.suffix_rfl
    split
    · exact .ensure fun _ => .pure _ List.suffix_rfl
    · exact .err _ _

theorem parseInt_safe {cfg : Cfg} (hc : cfg.checked = true) (t : IntTy) (rc : Bool) (s : Bytes) : Safe0 s (parseInt cfg t rc s) := by
  unfold parseInt
  split
  · unfold parseSigned
    refine .weakly hc fun _ => ?_
    refine (validateSignedFirst_safe hc s).bind fun sg b _ hb => ?_
    refine ((unsignedNotKnown_safe hc _ _ b).weak hb).bind fun u b _ hb => ?_
    exact .trim hc (.weakly hc fun _ => .pure _ ((trimChecked_suffix b).trans hb))
  · unfold parseUnsigned
    refine .weakly hc fun hs => ?_
    refine .seq ?_ fun _ _ => ?_
    · unfold whenChecked
      rw [if_pos hc]
      cases s with
      | nil => simp at hs
      | cons c cs => exact ensure_ne_ub _ _
    refine (unsignedNotKnown_safe hc _ _ s).bind fun u b _ hb => ?_
    exact .weakly hc fun _ => .pure _ hb

theorem skipQuote_ne_ub {cfg : Cfg} (hc : cfg.checked = true) (al : Bool) (s : Bytes) :
    skipQuote cfg al s ≠ .ub ∧ ∀ r, skipQuote cfg al s = .ok r → r <:+ s := by
  unfold skipQuote
  rw [hc]
  cases s with
  | nil => cases al <;> simp [headIs]
  | cons c cs =>
    cases al with
    | true =>
      by_cases h : c = chQuote
      · subst h
        simp [headIs]
      · simp [headIs, h, ensure]
    | false =>
      by_cases h : c = chQuote
      · subst h
        simp
      · simp [h]

theorem Safe0.quote {α : Type} {s b : Bytes} {cfg : Cfg} (hc : cfg.checked = true) {al : Bool} {f : Bytes → Res (α × Bytes)} (hb : b <:+ s)
    (hf : ∀ r, r <:+ s → Safe0 s (f r)) : Safe0 s (skipQuote cfg al b >>= f) :=
  .seq (skipQuote_ne_ub hc al b).1 fun r h => hf r (((skipQuote_ne_ub hc al b).2 r h).trans hb)

theorem parseLit_safe {cfg : Cfg} (hc : cfg.checked = true) (al : Bool) (l : LitTy) (s : Bytes) : Safe0 s (parseLit cfg al l s) := by
  unfold parseLit
  cases l with
  | bool =>
    refine Safe0.bind ?_ fun v r _ hr => .pure _ hr
    unfold parseBoolQ
    refine .quote hc List.suffix_rfl fun b hb => ?_
    refine ((eatBool_safe hc b).weak hb).bind fun v b _ hb => ?_
    exact .quote hc hb fun b hb => .trim hc (.weakly hc fun _ => .pure _ ((trimChecked_suffix b).trans hb))
  | int t rc =>
    dsimp only
    split <;> refine Safe0.bind ?_ fun v r _ hr => .pure _ hr
    · unfold parseSignedQ
      refine .quote hc List.suffix_rfl fun b hb => ?_
      refine ((validateSignedFirst_safe hc b).weak hb).bind fun sg b _ hb => ?_
      refine ((unsignedNotKnown_safe hc _ _ b).weak hb).bind fun u b _ hb => ?_
      exact .quote hc hb fun b hb => .trim hc (.weakly hc fun _ => .pure _ ((trimChecked_suffix b).trans hb))
    · unfold parseUnsignedQ
      refine .quote hc List.suffix_rfl fun b hb => ?_
      refine .weakly hc fun hs => ?_
      refine .seq ?_ fun _ _ => ?_
      · unfold whenChecked
        rw [if_pos hc]
        cases b with
        | nil => simp at hs
        | cons c cs => exact ensure_ne_ub _ _
      refine ((unsignedNotKnown_safe hc _ _ b).weak hb).bind fun u b _ hb => ?_
      exact .quote hc hb fun b hb => .weakly hc fun _ => .weakly hc fun _ => .pure _ hb

theorem unsignedKnown_ne_ub (bits : Nat) (rc : Bool) (s : Bytes) : unsignedKnown bits rc s ≠ .ub := by
  unfold unsignedKnown
  split
  · exact narrowUnsigned_ne_ub _ _
  · simp

theorem parseIntKnown_ne_ub {cfg : Cfg} (hc : cfg.checked = true) (t : IntTy) (rc : Bool) {s : Bytes}
    (h : cfg.endQuote = true ∨ s ≠ []) : parseIntKnown cfg t rc s ≠ .ub := by
  unfold parseIntKnown
  split
  · unfold parseSignedKnown whenChecked
    rw [if_pos hc]
    refine Res.bind_ne_ub (Res.bind_ne_ub (derefEnd_ne_ub h) fun _ _ => ensure_ne_ub _ _) fun _ _ => ?_
    refine Res.bind_ne_ub (validateSignedFirst_safe hc s).1 fun _ _ => ?_
    exact Res.bind_ne_ub (unsignedKnown_ne_ub _ _ _) fun _ _ => by simp
  · unfold parseUnsignedKnown validateUnsignedFirst
    rw [if_pos hc]
    refine Res.bind_ne_ub (Res.bind_ne_ub (derefEnd_ne_ub h) fun _ _ => ?_) fun _ _ => ?_
    · split <;> exact ensure_ne_ub _ _
    · exact Res.bind_ne_ub (unsignedKnown_ne_ub _ _ _) fun _ _ => by simp

theorem skipString_safe {cfg : Cfg} (hc : cfg.checked = true) (kq : Bool) (s : Bytes) : Safe0 s (skipString cfg kq s) := by
  refine ⟨skipString_ne_ub hc _ _, fun v r h => ?_⟩
  cases s with
  | nil => simp [skipString] at h; rw [h.2]; exact List.suffix_rfl
  | cons c cs => exact (skipString_later h).1

theorem skipValue_safe {cfg : Cfg} (hc : cfg.checked = true) (kq : Bool) (s : Bytes) : Safe0 s (skipValue cfg kq s) :=
  ⟨skipValue_ne_ub hc _ _, fun _ _ h => (skipValue_later h).1⟩

theorem skipLiteral_safe {cfg : Cfg} (hc : cfg.checked = true) (s : Bytes) : Safe0 s (skipLiteral cfg s) := by
  unfold skipLiteral
  refine .weakly hc fun hs => ?_
  cases s with
  | nil => simp at hs
  | cons c cs =>
    simp only [deref_cons, Res.ok_bind]
    split
    · exact ⟨skipTrue_ne_ub hc _, fun _ _ h => (skipTrue_later h).1⟩
    split
    · exact ⟨skipFalse_ne_ub hc _, fun _ _ h => (skipFalse_later h).1⟩
    split
    · exact ⟨skipNull_ne_ub hc _, fun _ _ h => (skipNull_later h).1⟩
    split
    · rename_i hn
      exact ⟨skipNumber_ne_ub hc _, fun _ _ h => (skipNumber_later hn h).1⟩
    · split <;> exact .err _ _

theorem parseStr_safe {cfg : Cfg} (hc : cfg.checked = true) (ah : Bool) (s : Bytes) :
    Safe0 s (parseStr cfg ah s) ∧ ∀ v r, parseStr cfg ah s = .ok (v, r) → r.length < s.length := by
  have h : ∀ v r, parseStr cfg ah s = .ok (v, r) → r <:+ s ∧ r.length < s.length := by
    intro v r h
    unfold parseStr at h
    simp only [Res.bind_eq_ok] at h
    obtain ⟨_, hs, ⟨q, rest⟩, hk, w, _, h⟩ := h
    simp at h
    obtain ⟨-, rfl⟩ := h
    cases s with
    | nil => simp at hs
    | cons c cs => exact skipString_later hk
  exact ⟨⟨parseStr_checked hc _ _, fun v r he => (h v r he).1⟩, fun v r he => (h v r he).2⟩

theorem parseTxt_safe {k : Kinds} {cfg : Cfg} (hc : cfg.checked = true) {x : TxtKind} (hx : TyWithin k (.txt x)) {s : Bytes}
    (hp : PeekOk k cfg s) : Safe0 s (parseTxt cfg x s) := by
  cases x with
  | rawStr ah => exact (skipString_safe hc _ s).bind fun v r _ hr => .pure _ hr
  | date | real => exact hx.elim
  | quoted al l => exact (parseLit_safe hc al l s).bind fun v r _ hr => .pure _ hr
  | raw => exact (skipValue_safe hc _ s).bind fun v r _ hr => .pure _ hr
  | custom c =>
    have h : Safe0 s (customText cfg c s) := by
      cases c with
      | str => exact (skipString_safe hc _ s).bind fun v r _ hr => .pure _ hr
      | lit => exact (skipLiteral_safe hc s).bind fun v r _ hr => .pure _ hr
      | any =>
        refine .seq (derefEnd_ne_ub (hp hx)) fun ch _ => ?_
        split
        · exact (skipString_safe hc _ s).bind fun v r _ hr => .pure _ hr
        · exact (skipValue_safe hc _ s).bind fun v r _ hr => .pure _ hr
    unfold parseTxt parseCustom
    refine Safe0.bind (h.bind fun v r _ hr => ?_) fun v r _ hr => .pure _ hr
    exact .seq (assertWeak_ne_ub _ _ _) fun _ _ => .pure _ hr

theorem parseTxtKnown_ne_ub {k : Kinds} {cfg : Cfg} (hc : cfg.checked = true) {x : TxtKind} (hx : TyWithin k (.txt x)) (r : Range)
    (a : Bytes) (h : (cfg.inside r).endQuote = true ∨ r.text ≠ []) : parseTxtKnown cfg x r a ≠ .ub := by
  cases x with
  | rawStr ah => simp [parseTxtKnown]
  | date | real => exact hx.elim
  | quoted al l =>
    have hic : (cfg.inside r).checked = true := by unfold Cfg.inside; split <;> exact hc
    refine Res.bind_ne_ub ?_ fun _ _ => by simp
    unfold parseLitKnown
    cases l with
    | bool =>
      refine Res.bind_ne_ub ?_ fun _ _ => by simp
      unfold parseBoolKnown
      rw [if_pos hic]
      refine Res.bind_ne_ub (derefEnd_ne_ub h) fun _ _ => ?_
      repeat' split
      all_goals simp
    | int t rc => exact Res.bind_ne_ub (parseIntKnown_ne_ub hic t rc h) fun _ _ => by simp
  | raw => simp [parseTxtKnown]
  | custom c =>
    unfold parseTxtKnown parseCustomKnown
    exact Res.bind_ne_ub (Res.bind_ne_ub (assertWeak_ne_ub _ _ _) fun _ _ => by simp) fun _ _ => by simp

theorem eatNull_safe {cfg : Cfg} (hc : cfg.checked = true) (s : Bytes) :
    eatNull cfg s ≠ .ub ∧ (∀ r, eatNull cfg s = .ok (some r) → r <:+ s) := by
  unfold eatNull
  split
  · exact ⟨by simp, fun r h => by cases h; exact List.suffix_rfl⟩
  split
  · cases endOfItem (s.drop 4) with
    | false => simp
    | true => exact ⟨by simp, fun r h => by cases h; exact (trimChecked_suffix _).trans (List.drop_suffix _ _)⟩
  · simp

/-! ## Names -/

theorem trimEndOfName_safe {cfg : Cfg} (hc : cfg.checked = true) (s : Bytes) :
    trimEndOfName cfg s ≠ .ub ∧ ∀ r, trimEndOfName cfg s = .ok r → r <:+ s ∧ (r = [] → EndsIn chColon s) := by
  unfold trimEndOfName trim whenChecked
  simp only [hc, if_true, Res.ok_bind]
  obtain ⟨w, hw, -⟩ := trimChecked_split s
  cases ht : trimChecked s with
  | nil => simp
  | cons c cs =>
    rw [ht] at hw
    by_cases hcc : c = chColon
    · subst hcc
      simp only [List.isEmpty_cons, Bool.not_false, ensure_true, Res.ok_bind, headIs, beq_self_eq_true, List.tail_cons]
      refine ⟨by simp, fun r h => ?_⟩
      simp only [Res.ok.injEq] at h
      subst h
      refine ⟨(trimChecked_suffix cs).trans ⟨w ++ [chColon], by rw [hw]; simp⟩, fun he => ?_⟩
      obtain ⟨v, hv, hvs⟩ := trimChecked_split cs
      rw [he, List.append_nil] at hv
      exact ⟨w, v, by rw [hw, ← hv], hvs⟩
    · have : (c == chColon) = false := by simpa using hcc
      simp [headIs, this]

theorem toQuote_suffix (s : Bytes) : (toQuote s).2 <:+ s := by
  induction s with
  | nil => simp [toQuote]
  | cons c s ih =>
    unfold toQuote
    split
    · exact List.suffix_rfl
    · exact ih.trans (List.suffix_cons _ _)

theorem parseName_safe {t : TCfg} (hc : t.cfg.checked = true) (s : Bytes) :
    parseName t s ≠ .ub ∧ ∀ n r, parseName t s = .ok (n, r) →
      headIs (· == chQuote) s = true ∧ Later r s ∧ (r = [] → EndsIn chColon s) := by
  unfold parseName
  cases hq : headIs (· == chQuote) s with
  | false => simp [hc]
  | true =>
    cases s with
    | nil => simp [headIs] at hq
    | cons c cs =>
      have fin : ∀ {b r : Bytes}, b <:+ cs → trimEndOfName t.cfg b = .ok r → Later r (c :: cs) ∧ (r = [] → EndsIn chColon (c :: cs)) := by
        intro b r hb h
        obtain ⟨h1, h2⟩ := (trimEndOfName_safe hc b).2 r h
        exact ⟨.of_tail (h1.trans hb), fun he => (h2 he).of_suffix (hb.trans (List.suffix_cons _ _))⟩
      simp only [assertWeak_ok, Res.ok_bind, deref_cons, List.tail_cons]
      split
      · refine ⟨Res.bind_ne_ub (Res.bind_ne_ub (parseNq_ne_ub hc _) fun _ _ => by simp) fun a _ =>
          Res.bind_ne_ub (trimEndOfName_safe hc _).1 fun _ _ => by simp, fun n r h => ⟨by simp, ?_⟩⟩
        simp only [Res.bind_eq_ok] at h
        obtain ⟨⟨q, b⟩, h1, b', h2, h⟩ := h
        simp only [Res.ok.injEq, Prod.mk.injEq] at h
        obtain ⟨-, rfl⟩ := h
        simp only [skipStringNq, Res.bind_eq_ok] at h1
        obtain ⟨⟨sl, m⟩, _, h1⟩ := h1
        simp only [Res.ok.injEq, Prod.mk.injEq] at h1
        obtain ⟨-, rfl⟩ := h1
        exact fin (List.drop_suffix _ _) h2
      · have hs := toQuote_suffix cs
        generalize toQuote cs = x at hs
        obtain ⟨nm, b⟩ := x
        cases b with
        | nil => simp [hc]
        | cons d ds =>
          simp only [deref_cons, Res.ok_bind, List.tail_cons]
          refine ⟨Res.bind_ne_ub (assertWeak_ne_ub _ _ _) fun _ _ =>
            Res.bind_ne_ub (trimEndOfName_safe hc _).1 fun _ _ => by simp, fun n r h => ⟨by simp, ?_⟩⟩
          simp only [Res.bind_eq_ok] at h
          obtain ⟨_, _, b', h2, h⟩ := h
          simp only [Res.ok.injEq, Prod.mk.injEq] at h
          obtain ⟨-, rfl⟩ := h
          exact fin ((List.suffix_cons _ _).trans hs) h2

/-! ## Arrays and maps -/

theorem arrLoop_safe {k : Kinds} {cfg : Cfg} (hc : cfg.checked = true) {p : Bytes → Res (Val × Bytes)} {n : Nat}
    (hp : SafeBelow k cfg n p) (s : Bytes) (hn : s.length < n) (he : EndOk k cfg s) : Safe0 s (arrLoop cfg p s) := by
  induction hl : s.length using Nat.strongRecOn generalizing s with
  | _ m ih =>
    subst hl
    rw [arrLoop.eq_def]
    refine .weakly hc fun hs => ?_
    refine (hp s hn he (.ne (ne_of_not_isEmpty hs))).bind fun v b _ hb => ?_
    dsimp only
    refine .trim hc ?_
    refine .weakly hc fun hh => ?_
    refine .moveNext hc ?_
    have hbs : trimChecked b <:+ s := (trimChecked_suffix b).trans hb
    have hm : moveNextChecked (trimChecked b) <:+ s := (moveNextChecked_suffix _).trans hbs
    refine .weakly hc fun hne => ?_
    cases hmb : moveNextChecked (trimChecked b) with
    | nil => rw [hmb] at hne; simp at hne
    | cons d ds =>
      simp only [deref_cons, Res.ok_bind]
      rw [hmb] at hm
      split
      · exact .pure _ (((trimChecked_suffix _).trans (List.tail_suffix _)).trans hm)
      · rename_i hd
        have hlt : (d :: ds).length < s.length := by
          cases htb : trimChecked b with
          | nil => rw [htb] at hh; simp [headIs] at hh
          | cons e es =>
            rw [htb] at hh hmb hbs
            simp only [headIs, Bool.or_eq_true, beq_iff_eq] at hh
            have htt : trimChecked (e :: es) = e :: es := by rw [← htb, trimChecked_idem]
            unfold moveNextChecked at hmb
            rw [htt] at hmb
            dsimp only at hmb
            rcases hh with hh | hh
            · rw [if_pos hh] at hmb
              have h1 := (trimChecked_suffix es).length_le
              rw [hmb] at h1
              have h2 := hbs.length_le
              simp only [List.length_cons] at h1 h2 ⊢
              omega
            · rw [if_neg (by rw [hh]; decide)] at hmb
              simp only [List.cons.injEq] at hmb
              exact absurd (hmb.1 ▸ hh) hd
        rw [dif_pos hlt]
        refine ((ih _ hlt _ (by omega) (he.suffix hm) rfl).weak hm).bind fun vs r _ hr => ?_
        exact .pure _ hr

theorem trimUncheckedEnd_safe {cfg : Cfg} {b : Bytes} (h : cfg.endQuote = true ∨ ¬ ∀ x ∈ b, isSpace x = true) :
    trimUncheckedEnd cfg b ≠ .ub ∧ ∀ r, trimUncheckedEnd cfg b = .ok r → r <:+ b ∧ (cfg.endQuote = true ∨ r ≠ []) := by
  induction b with
  | nil =>
    rcases h with h | h
    · unfold trimUncheckedEnd
      rw [if_pos h]
      exact ⟨by simp, fun r he => by cases he; exact ⟨List.suffix_rfl, Or.inl h⟩⟩
    · exact absurd (by simp) h
  | cons c b ih =>
    unfold trimUncheckedEnd
    split
    · rename_i hs
      obtain ⟨h1, h2⟩ := ih (h.imp id fun h hb => h (by
        intro x hx
        rcases List.mem_cons.1 hx with rfl | hx
        · exact hs
        · exact hb x hx))
      exact ⟨h1, fun r he => ⟨(h2 r he).1.trans (List.suffix_cons _ _), (h2 r he).2⟩⟩
    · exact ⟨by simp, fun r he => by cases he; exact ⟨List.suffix_rfl, Or.inr (by simp)⟩⟩

theorem parseArr_safe {k : Kinds} {cfg : Cfg} (hc : cfg.checked = true) (hk : k.arrays = true) {p : Bytes → Res (Val × Bytes)}
    (s : Bytes) (hp : SafeBelow k cfg s.length p) (he : EndOk k cfg s) : Safe0 s (parseArr cfg p s) := by
  unfold parseArr
  refine .trim hc ?_
  refine .weakly hc fun hh => ?_
  obtain ⟨w, hw, -⟩ := trimChecked_split s
  cases ht : trimChecked s with
  | nil => rw [ht] at hh; simp [headIs] at hh
  | cons c cs =>
    rw [ht] at hh hw
    have hcc : c = chLBrack := by simpa [headIs] using hh
    subst hcc
    have hcs : cs <:+ s := ⟨w ++ [chLBrack], by rw [hw]; simp⟩
    have hlen : cs.length < s.length := by have := congrArg List.length hw; simp at this; omega
    simp only [List.tail_cons]
    obtain ⟨h1, h2⟩ := trimUncheckedEnd_safe (cfg := cfg) (b := cs) ((he.1 hk).imp id fun h hall => h ⟨w, cs, hw, hall⟩)
    refine .seq h1 fun b hb => ?_
    obtain ⟨h3, h4⟩ := h2 b hb
    refine .seq (derefEnd_ne_ub h4) fun d _ => ?_
    split
    · exact .pure _ (((trimChecked_suffix _).trans (List.tail_suffix _)).trans (h3.trans hcs))
    · have hl := h3.length_le
      refine ((arrLoop_safe hc hp b (by omega) (he.suffix (h3.trans hcs))).weak (h3.trans hcs)).bind fun vs r _ hr => ?_
      exact .pure _ hr

theorem mapLoop_safe {k : Kinds} {cfg : Cfg} (hc : cfg.checked = true) {p : Bytes → Res (Val × Bytes)} {n : Nat}
    (hp : SafeBelow k cfg n p) (s : Bytes) (hn : s.length < n) (he : EndOk k cfg s) : Safe0 s (mapLoop cfg p s) := by
  induction hl : s.length using Nat.strongRecOn generalizing s with
  | _ m ih =>
    subst hl
    rw [mapLoop.eq_def]
    refine .weakly hc fun hs => ?_
    refine (parseStr_safe hc true s).1.bind fun ky b hb hbs => ?_
    have hlt := (parseStr_safe hc true s).2 _ _ hb
    dsimp only
    refine .seq (trimEndOfName_safe hc b).1 fun c htc => ?_
    obtain ⟨h1, h2⟩ := (trimEndOfName_safe hc b).2 c htc
    have hcs : c <:+ s := h1.trans hbs
    have hce : EndOk k cfg c := he.suffix hcs
    have hpc : PeekOk k cfg c := fun hk => (he.2.1 hk).imp id fun h hce => h ((h2 hce).of_suffix hbs)
    have hsafe := hp c (by have := h1.length_le; omega) hce hpc
    refine (hsafe.weak hcs).bind fun v d hd hds => ?_
    dsimp only
    refine .moveNext hc ?_
    refine .weakly hc fun hne => ?_
    have hm : moveNextChecked d <:+ s := (moveNextChecked_suffix _).trans hds
    have hdc : d <:+ c := hsafe.2 _ _ hd
    have hl : (moveNextChecked d).length < s.length := by
      have := (((moveNextChecked_suffix d).trans hdc).trans h1).length_le
      omega
    cases hmb : moveNextChecked d with
    | nil => rw [hmb] at hne; simp at hne
    | cons e es =>
      simp only [deref_cons, Res.ok_bind]
      rw [hmb] at hm hl
      split
      · exact .pure _ (((trimChecked_suffix _).trans (List.tail_suffix _)).trans hm)
      · refine ((ih _ hl _ (by omega) (he.suffix hm) rfl).weak hm).bind fun vs r _ hr => ?_
        exact .pure _ hr

theorem parseMap_safe {k : Kinds} {cfg : Cfg} (hc : cfg.checked = true) {p : Bytes → Res (Val × Bytes)}
    (s : Bytes) (hp : SafeBelow k cfg s.length p) (he : EndOk k cfg s) : Safe0 s (parseMap cfg p s) := by
  unfold parseMap
  refine .weakly hc fun hh => ?_
  have hs0 : s ≠ [] := ne_of_headIs hh
  refine .trim hc ?_
  refine .ensure fun hne => ?_
  have hs : trimChecked s.tail <:+ s := (trimChecked_suffix _).trans (List.tail_suffix _)
  have hlen : (trimChecked s.tail).length < s.length := by
    have := (trimChecked_suffix s.tail).length_le
    cases s with
    | nil => exact absurd rfl hs0
    | cons c cs => simp only [List.length_cons, List.tail_cons] at this ⊢; omega
  cases ht : trimChecked s.tail with
  | nil => rw [ht] at hne; simp at hne
  | cons d ds =>
    simp only [deref_cons, Res.ok_bind]
    rw [ht] at hs hlen
    split
    · exact .pure _ (((trimChecked_suffix _).trans (List.tail_suffix _)).trans hs)
    · refine ((mapLoop_safe hc hp _ hlen (he.suffix hs)).weak hs).bind fun vs r _ hr => ?_
      exact .pure _ hr

/-! ## Tuples and ordered classes -/

theorem skipBracketed_safe {cfg : Cfg} (hc : cfg.checked = true) (k : Brackets) (s : Bytes) : Safe0 s (skipBracketed cfg k s) := by
  refine ⟨skipBracketed_ne_ub hc _ _, fun v r h => ?_⟩
  unfold skipBracketed at h
  rw [if_pos hc] at h
  cases s with
  | nil => simp [skipBracketedChecked] at h; rw [h.2]; exact List.suffix_rfl
  | cons c cs =>
    simp only [skipBracketedChecked, Res.bind_eq_ok] at h
    obtain ⟨⟨n, b⟩, hb, h⟩ := h
    simp only [Res.ok.injEq, Prod.mk.injEq] at h
    obtain ⟨-, rfl⟩ := h
    refine (brLoop_suffix hb).trans ?_
    split
    · exact List.suffix_cons _ _
    · exact List.suffix_rfl

theorem tupMembers_safe {k : Kinds} {cfg : Cfg} (hc : cfg.checked = true) {pU : Ty → Bytes → Res (Val × Bytes)} {n : Nat}
    (ts : List Ty) (hp : ∀ ty ∈ ts, SafeBelow k cfg n (pU ty)) (s : Bytes) (hn : s.length < n) (he : EndOk k cfg s) :
    Safe0 s (tupMembers cfg pU ts s) := by
  induction ts generalizing s with
  | nil => exact .pure _ List.suffix_rfl
  | cons ty ts ih =>
    unfold tupMembers
    refine .weakly hc fun hs => ?_
    refine (hp ty (by simp) s hn he (.ne (ne_of_not_isEmpty hs))).bind fun v b _ hb => ?_
    dsimp only
    refine .moveNext hc ?_
    have hm : moveNextChecked b <:+ s := (moveNextChecked_suffix _).trans hb
    have := hm.length_le
    refine ((ih (fun ty hty => hp ty (by simp [hty])) _ (by omega) (he.suffix hm)).weak hm).bind fun vs r _ hr => ?_
    exact .pure _ hr

theorem lbrack_split {s : Bytes} {f : UInt8 → Bool} (h : headIs f (trimChecked s) = true) :
    (trimChecked s).tail <:+ s ∧ (trimChecked s).tail.length < s.length := by
  have := (trimChecked_suffix s).length_le
  refine ⟨(List.tail_suffix _).trans (trimChecked_suffix s), ?_⟩
  cases ht : trimChecked s with
  | nil => rw [ht] at h; simp [headIs] at h
  | cons c cs => rw [ht] at this; simp at this ⊢; omega

theorem parseTup_safe {k : Kinds} {cfg : Cfg} (hc : cfg.checked = true) {exact : Bool} (hx : exact = true → k.closing = true) {pU : Ty → Bytes → Res (Val × Bytes)}
    (ts : List Ty) (s : Bytes) (hp : ∀ ty ∈ ts, SafeBelow k cfg s.length (pU ty)) (he : EndOk k cfg s) :
    Safe0 s (parseTup cfg exact ts pU s) := by
  unfold parseTup
  refine .trim hc ?_
  refine .weakly hc fun hh => ?_
  obtain ⟨h1, h2⟩ := lbrack_split hh
  refine .moveNext hc (.trim hc ?_)
  have hm : trimChecked (moveNextChecked (trimChecked s).tail) <:+ s :=
    ((trimChecked_suffix _).trans (moveNextChecked_suffix _)).trans h1
  have hl := ((trimChecked_suffix (moveNextChecked (trimChecked s).tail)).trans (moveNextChecked_suffix _)).length_le
  refine ((tupMembers_safe hc ts hp _ (by omega) (he.suffix hm)).weak hm).bind fun vs b _ hb => ?_
  dsimp only
  split
  · rename_i hex
    refine .trim hc ?_
    refine .seq (derefEnd_ne_ub (Or.inl (he.2.2 (hx hex)))) fun c _ => ?_
    refine .weakly hc fun _ => .trim hc ?_
    exact .pure _ ((((trimChecked_suffix _).trans (List.tail_suffix _)).trans (trimChecked_suffix _)).trans hb)
  · exact ((skipBracketed_safe hc _ b).weak hb).bind fun v r _ hr => .pure _ hr

theorem skipMembers_safe {cfg : Cfg} (hc : cfg.checked = true) (he : cfg.endQuote = true) (nullable : Bool) (n : Nat) (s : Bytes) :
    Safe0 s (skipMembers cfg nullable n s) := by
  have ha : ∀ s : Bytes, atArrayEnd cfg nullable s ≠ .ub := by
    intro s
    unfold atArrayEnd
    split
    · simp
    · exact Res.bind_ne_ub (derefEnd_ne_ub (Or.inl he)) fun _ _ => by simp
  induction n generalizing s with
  | zero => exact .seq (ha s) fun _ _ => .pure _ List.suffix_rfl
  | succ n ih =>
    unfold skipMembers
    refine .seq (ha s) fun e _ => ?_
    split
    · exact .pure _ List.suffix_rfl
    · refine (skipValue_safe hc _ s).bind fun v b _ hb => ?_
      dsimp only
      refine .moveNext hc ?_
      refine .weakly hc fun _ => ?_
      exact (ih _).weak ((moveNextChecked_suffix _).trans hb)

theorem maybeSkip_safe {cfg : Cfg} (hc : cfg.checked = true) (he : cfg.endQuote = true) (nullable : Bool) (a b : Nat) (s : Bytes) :
    Safe0 s (maybeSkip cfg nullable a b s) := by
  unfold maybeSkip
  refine .weakly hc fun _ => ?_
  exact (skipMembers_safe hc he _ _ s).bind fun v r _ hr => .pure _ hr

theorem ordMembers_safe {k : Kinds} {cfg : Cfg} (hc : cfg.checked = true) (hq : cfg.endQuote = true) {pU : Ty → Bytes → Res (Val × Bytes)} {n : Nat}
    (idx : Nat) (ms : List (Option Nat × Ty)) (hp : ∀ m ∈ ms, SafeBelow k cfg n (pU m.2)) (s : Bytes) (hn : s.length < n) :
    Safe0 s (ordMembers cfg pU idx ms s) := by
  induction ms generalizing s idx with
  | nil => exact .pure _ List.suffix_rfl
  | cons m ms ih =>
    obtain ⟨want, ty⟩ := m
    unfold ordMembers
    refine .moveNext hc ?_
    have hb := moveNextChecked_suffix s
    generalize moveNextChecked s = b at hb
    refine Safe0.bind (α := Nat) ?_ fun i b' _ hb' => ?_
    · cases want with
      | some w => exact (maybeSkip_safe hc hq _ _ _ b).weak hb
      | none => exact .weakly hc fun _ => .pure _ hb
    dsimp only
    refine .seq (derefEnd_ne_ub (Or.inl hq)) fun c _ => ?_
    refine Safe0.bind (α := Val) ?_ fun v b'' _ hb'' => ?_
    · split
      · split
        · exact .pure _ hb'
        · exact .err _ _
      · have := hb'.length_le
        exact (hp (want, ty) (by simp) b' (by omega) (.of_quote _ _ hq) (fun _ => Or.inl hq)).weak hb'
    · have := hb''.length_le
      refine ((ih _ (fun m hm => hp m (by simp [hm])) _ (by omega)).weak hb'').bind fun vs r _ hr => ?_
      exact .pure _ hr

theorem parseOrd_safe {k : Kinds} {cfg : Cfg} (hc : cfg.checked = true) (exact : Bool) (hq : cfg.endQuote = true) {pU : Ty → Bytes → Res (Val × Bytes)}
    (ms : List (Option Nat × Ty)) (s : Bytes) (hp : ∀ m ∈ ms, SafeBelow k cfg s.length (pU m.2)) :
    Safe0 s (parseOrd cfg exact ms pU s) := by
  unfold parseOrd
  refine .trim hc ?_
  refine .weakly hc fun hh => ?_
  obtain ⟨h1, h2⟩ := lbrack_split hh
  refine .trim hc ?_
  have hm : trimChecked (trimChecked s).tail <:+ s := (trimChecked_suffix _).trans h1
  have hl := (trimChecked_suffix (trimChecked s).tail).length_le
  refine ((ordMembers_safe hc hq _ ms hp _ (by omega)).weak hm).bind fun vs b _ hb => ?_
  dsimp only
  split
  · refine .trim hc ?_
    refine .seq (derefEnd_ne_ub (Or.inl hq)) fun c _ => ?_
    refine .weakly hc fun _ => .trim hc ?_
    exact .pure _ ((((trimChecked_suffix _).trans (List.tail_suffix _)).trans (trimChecked_suffix _)).trans hb)
  · exact ((skipBracketed_safe hc _ b).weak hb).bind fun v r _ hr => .pure _ hr

end Verif
