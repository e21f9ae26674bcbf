import Verif.Model.CommentTyped
import Verif.Proof.TypedSafe

/-!
# Typed parsing with comments: texts without the comment character
-/

namespace Verif

/-- Both are the same value, which has the property, or neither is a value. -/
def Sm {α : Type} (P : α → Prop) (a b : Res α) : Prop :=
  match a, b with
  | .ok x, .ok y => x = y ∧ P x
  | .ok _, _ => False
  | _, .ok _ => False
  | _, _ => True

theorem Sm.bind {α β : Type} {P : α → Prop} {Q : β → Prop} {a b : Res α} {f g : α → Res β} (h : Sm P a b)
    (hf : ∀ x, P x → Sm Q (f x) (g x)) : Sm Q (a >>= f) (b >>= g) := by
  cases a <;> cases b <;> simp only [Sm] at h
  · obtain ⟨rfl, h⟩ := h
    exact hf _ h
  all_goals trivial

theorem Sm.same {α : Type} {P : α → Prop} {a : Res α} (h : ∀ x, a = .ok x → P x) : Sm P a a := by
  cases a with
  | ok x => exact ⟨rfl, h x rfl⟩
  | err => trivial
  | ub => trivial

theorem Sm.pure {α : Type} {P : α → Prop} {x : α} (h : P x) : Sm P (.ok x) (.ok x) := ⟨rfl, h⟩

theorem Sm.seq {α β : Type} {Q : β → Prop} {a : Res α} {f g : α → Res β} (hf : ∀ x, a = .ok x → Sm Q (f x) (g x)) :
    Sm Q (a >>= f) (a >>= g) := by
  cases a with
  | ok x => exact hf x rfl
  | err => trivial
  | ub => trivial

theorem Sm.ensure {α : Type} {P : α → Prop} {b : Bool} {e e' : Err} {f g : Unit → Res α} (h : b = true → Sm P (f ()) (g ())) :
    Sm P (Verif.ensure b e >>= f) (Verif.ensure b e' >>= g) := by
  cases b with
  | true => exact h rfl
  | false => trivial

theorem Sm.weakly {α : Type} {P : α → Prop} {k b : Bool} {e e' : Err} {f g : Unit → Res α} (hk : k = true) (h : b = true → Sm P (f ()) (g ())) :
    Sm P (Verif.ensure b e >>= f) (assertWeak k b e' >>= g) := by
  subst hk
  cases b with
  | true => exact h rfl
  | false => trivial

theorem Sm.ite {α : Type} {P : α → Prop} {c : Prop} [Decidable c] {a a' b b' : Res α} (h : c → Sm P a a') (h' : ¬ c → Sm P b b') :
    Sm P (if c then a else b) (if c then a' else b') := by
  split
  · exact h ‹_›
  · exact h' ‹_›

theorem Sm.dite {α : Type} {P : α → Prop} {c : Prop} [Decidable c] {a a' : c → Res α} {b b' : ¬ c → Res α} (h : ∀ x, Sm P (a x) (a' x))
    (h' : ∀ x, Sm P (b x) (b' x)) : Sm P (if h : c then a h else b h) (if h : c then a' h else b' h) := by
  split
  · exact h _
  · exact h' _

theorem Sm.ok_iff {α : Type} {P : α → Prop} {a b : Res α} (h : Sm P a b) (x : α) : a = .ok x ↔ b = .ok x := by
  cases a <;> cases b <;> simp_all [Sm]

/-- The bytes that a policy treats as they are treated without it. -/
def OkB : Cmt → UInt8 → Prop
  | .mini, c => isSpace c = false
  | p, c => c ≠ cmtChar p

/-- All bytes are such bytes. -/
def Cl (p : Cmt) (s : Bytes) : Prop := ∀ c ∈ s, OkB p c

/-- The rest does not have other bytes in it. -/
def NR (p : Cmt) {α : Type} (x : α × Bytes) : Prop := Cl p x.2

theorem not_mem_suffix {p : Cmt} {s r : Bytes} (h : Cl p s) (hr : r <:+ s) : Cl p r := fun c hm => h c (hr.subset hm)

theorem Sm.rest {p : Cmt} {α : Type} {s : Bytes} {a : Res (α × Bytes)} (h : Cl p s) (ha : ∀ v r, a = .ok (v, r) → r <:+ s) : Sm (NR p) a a :=
  .same fun x hx => not_mem_suffix h (ha x.1 x.2 hx)

variable {p : Cmt}

/-! ## Trimming and skipping -/

theorem skipCmt_clean {c : UInt8} (h : OkB p c) (cs : Bytes) : skipCmt p (c :: cs) = .ok (c :: cs) := by
  cases p
  · show skipCpp _ = _
    rw [skipCpp.eq_def]
    simp [show c ≠ chSlash from h]
  · show skipHash _ = _
    rw [skipHash.eq_def]
    simp [show c ≠ chHash from h]
  · rfl

theorem skipCmt_nil (p : Cmt) : skipCmt p [] = .ok [] := by
  cases p
  · show skipCpp _ = _
    rw [skipCpp.eq_def]
  · show skipHash _ = _
    rw [skipHash.eq_def]
  · rfl

theorem OkB.space {c : UInt8} (h : OkB p c) : (p.skipsSpace && isSpace c) = isSpace c := by
  cases p
  · simp [Cmt.skipsSpace]
  · simp [Cmt.skipsSpace]
  · rw [show isSpace c = false from h]; rfl

theorem skipCmt_clean' {bs : Bytes} (h : Cl p bs) : skipCmt p bs = .ok bs := by
  cases bs with
  | nil => exact skipCmt_nil p
  | cons c cs => exact skipCmt_clean (h c List.mem_cons_self) cs

theorem trimCmt_clean {bs : Bytes} (h : Cl p bs) : trimCmt p bs = .ok (trimChecked bs) := by
  induction bs with
  | nil =>
    rw [trimCmt.eq_def]
    split
    · rfl
    all_goals rename_i hm; rw [skipCmt_nil] at hm; simp at hm
  | cons c cs ih =>
    have e := skipCmt_clean' h
    rw [trimCmt.eq_def]
    split
    · rename_i hm; rw [e] at hm; simp at hm
    · rename_i hm
      rw [e] at hm
      simp at hm
      obtain ⟨rfl, rfl⟩ := hm
      rw [trimChecked, (h c List.mem_cons_self).space]
      split
      · exact ih fun c hm => h c (List.mem_cons_of_mem _ hm)
      · rfl
    all_goals rename_i hm; rw [e] at hm; simp at hm

theorem moveNextCmt_clean {bs : Bytes} (h : Cl p bs) : moveNextCmt p bs = .ok (moveNextChecked bs) := by
  unfold moveNextCmt moveNextChecked
  rw [trimCmt_clean h, Res.ok_bind]
  have h2 := not_mem_suffix h (trimChecked_suffix bs)
  cases e : trimChecked bs with
  | nil => rfl
  | cons c cs =>
    simp only
    split
    · rw [trimCmt_clean]
      rw [e] at h2
      exact fun c hm => h2 c (List.mem_cons_of_mem _ hm)
    · rfl

theorem trimCmtUnchecked_clean {bs : Bytes} (h : Cl p bs) (hn : p = .mini → bs ≠ []) : trimCmtUnchecked p bs = trimUnchecked bs := by
  unfold trimCmtUnchecked
  cases bs with
  | nil => cases p <;> simp_all [skipCppUnchecked, skipHashUnchecked, trimUnchecked]
  | cons c cs =>
    cases p
    · have hc : c ≠ chSlash := h c List.mem_cons_self
      have : skipCppUnchecked (c :: cs) = .ok (c :: cs) := by rw [skipCppUnchecked.eq_def]; simp [hc]
      simp only [this, Res.ok_bind]
    · have hc : c ≠ chHash := h c List.mem_cons_self
      have : skipHashUnchecked (c :: cs) = .ok (c :: cs) := by rw [skipHashUnchecked.eq_def]; simp [hc]
      simp only [this, Res.ok_bind]
    · have hc : isSpace c = false := h c List.mem_cons_self
      simp [trimUnchecked, hc]

theorem memSkipStr_suffix' (bs : Bytes) : memSkipStr bs <:+ bs := by
  fun_induction memSkipStr bs with
  | case1 => exact List.suffix_rfl
  | case2 => exact List.suffix_rfl
  | case3 => exact List.nil_suffix
  | case4 _ _ _ ih => exact ih.trans ((List.suffix_cons _ _).trans (List.suffix_cons _ _))
  | case5 _ _ _ _ ih => exact ih.trans (List.suffix_cons _ _)

theorem brLoopCmt_clean (k : Brackets) {ps s cnt : Nat} {bs : Bytes} (h : Cl p bs) :
    brLoopCmt p k ps s cnt bs = brLoop k ps s cnt bs := by
  fun_induction brLoop k ps s cnt bs with
  | case1 => rw [brLoopCmt.eq_def]
  | case2 ps s cnt cs ih =>
    rw [brLoopCmt.eq_def]
    simp only [if_true]
    exact ih fun c hm => h c (List.mem_cons_of_mem _ (List.mem_of_mem_drop hm))
  | case3 ps s cnt cs hm hb =>
    rw [brLoopCmt.eq_def]
    simp only [if_true]
    split
    · exact absurd ‹_› hb
    · split
      · rfl
      · rename_i hm'; rw [hm] at hm'; cases hm'
  | case4 ps s cnt cs x cs' hm hb ih =>
    rw [brLoopCmt.eq_def]
    simp only [if_true]
    split
    · exact absurd ‹_› hb
    · split
      · rename_i hm'; rw [hm] at hm'; cases hm'
      · rename_i hm'
        rw [hm] at hm'
        cases hm'
        refine ih fun c hx => h c (List.mem_cons_of_mem _ ((memSkipStr_suffix' cs).subset ?_))
        rw [hm]
        exact List.mem_cons_of_mem _ hx
  | case5 ps s cnt cs hb hq ih =>
    rw [brLoopCmt.eq_def]
    simp only [hb, hq, if_false, if_true]
    exact ih fun c hm => h c (List.mem_cons_of_mem _ hm)
  | case6 ps s cnt cs hb hq hc ih =>
    rw [brLoopCmt.eq_def]
    simp only [hb, hq, hc, if_false, if_true]
    exact ih fun c hm => h c (List.mem_cons_of_mem _ hm)
  | case7 ps s cnt cs hb hq hc hl hd =>
    rw [brLoopCmt.eq_def]
    simp only [hb, hq, hc, hl, hd, if_false, if_true]
  | case8 ps s cnt cs hb hq hc hl hd ih =>
    rw [brLoopCmt.eq_def]
    simp only [hb, hq, hc, hl, hd, if_false, if_true]
    exact ih fun c hm => h c (List.mem_cons_of_mem _ hm)
  | case9 ps s cnt cs hb hq hc hl hr ih =>
    rw [brLoopCmt.eq_def]
    simp only [hb, hq, hc, hl, hr, if_false, if_true]
    exact ih fun c hm => h c (List.mem_cons_of_mem _ hm)
  | case10 ps s cnt cs hb hq hc hl hr hs ih =>
    rw [brLoopCmt.eq_def]
    simp only [hb, hq, hc, hl, hr, hs, if_false, if_true]
    exact ih fun c hm => h c (List.mem_cons_of_mem _ hm)
  | case11 ps s cnt c cs hb hq hc hl hr hs ht ih =>
    rw [brLoopCmt.eq_def]
    simp only [hb, hq, hc, hl, hr, hs, ht, if_false]
    have i2 := ih fun c hm => h c (List.mem_cons_of_mem _ hm)
    cases p
    · rw [if_neg (h c List.mem_cons_self : c ≠ chSlash)]
      exact i2
    · rw [if_neg (h c List.mem_cons_self : c ≠ chHash)]
      exact i2
    · split
      · exact i2
      · exact i2

theorem skipBracketedCmt_clean (k : Brackets) {bs : Bytes} (h : Cl p bs) :
    skipBracketedCmt p k bs = skipBracketedChecked k bs := by
  unfold skipBracketedCmt skipBracketedChecked
  cases bs with
  | nil => rfl
  | cons c cs =>
    simp only
    rw [brLoopCmt_clean]
    split
    · exact fun c hm => h c (List.mem_cons_of_mem _ hm)
    · exact h

theorem endOfLiteralCmt_clean (cfg : Cfg) (hc : cfg.checked = true) (e : Err) {bs : Bytes} (h : Cl p bs) :
    endOfLiteralCmt p e bs = endOfLiteral cfg e bs := by
  unfold endOfLiteralCmt endOfLiteral
  rw [trimCmt_clean h, trim, if_pos hc, hc]
  rfl

theorem skipValueCmt_clean {cfg : Cfg} (hc : cfg.checked = true) (kq : Bool) {bs : Bytes} (h : Cl p bs) :
    skipValueCmt p cfg.exclSpecial kq bs = skipValue cfg kq bs := by
  obtain ⟨ck, ex, eq⟩ := cfg
  obtain rfl : ck = true := hc
  unfold skipValueCmt skipValue
  cases bs with
  | nil => rfl
  | cons c cs =>
    have hd : ∀ n, Cl p (cs.drop n) := fun n c hm => h c (List.mem_cons_of_mem _ (List.mem_of_mem_drop hm))
    have hl : ∀ (cfg : Cfg) e tl (f : Bytes → Res (Range × Bytes)) g, cfg.checked = true →
        (∀ b, Cl p b → f b = g b) → (eatLiteral cfg e tl (c :: cs) >>= f) = (eatLiteral cfg e tl (c :: cs) >>= g) := by
      intro cfg e tl f g hc hfg
      unfold eatLiteral
      rw [if_pos hc]
      split
      · exact hfg _ (hd _)
      · rfl
    simp only [List.isEmpty_cons, Bool.not_false, ensure_true, assertWeak_tt, Res.ok_bind, deref_cons]
    split
    · rfl
    split
    · rw [skipBracketedCmt_clean _ h]; rfl
    split
    · rw [skipBracketedCmt_clean _ h]; rfl
    split
    · exact hl _ _ _ _ _ rfl fun b hb => by rw [endOfLiteralCmt_clean ⟨true, ex, eq⟩ rfl _ hb]
    split
    · exact hl _ _ _ _ _ rfl fun b hb => by rw [endOfLiteralCmt_clean ⟨true, ex, eq⟩ rfl _ hb]
    split
    · exact hl _ _ _ _ _ rfl fun b hb => by rw [endOfLiteralCmt_clean ⟨true, ex, eq⟩ rfl _ hb]; rfl
    split
    · rfl
    · rfl


theorem trim_ok {cfg : Cfg} (hc : cfg.checked = true) (bs : Bytes) : trim cfg bs = .ok (trimChecked bs) := by rw [trim, if_pos hc]

theorem moveNext_ok {cfg : Cfg} (hc : cfg.checked = true) (bs : Bytes) : moveNext cfg bs = .ok (moveNextChecked bs) := by
  rw [moveNext, if_pos hc]

theorem not_mem_trim {p : Cmt} {bs : Bytes} (h : Cl p bs) : Cl p (trimChecked bs) := not_mem_suffix h (trimChecked_suffix bs)

theorem not_mem_moveNext {p : Cmt} {bs : Bytes} (h : Cl p bs) : Cl p (moveNextChecked bs) := not_mem_suffix h (moveNextChecked_suffix bs)

theorem not_mem_tail {p : Cmt} {bs : Bytes} (h : Cl p bs) : Cl p bs.tail := fun c hm => h c (List.mem_of_mem_tail hm)

theorem not_mem_drop {p : Cmt} {bs : Bytes} (n : Nat) (h : Cl p bs) : Cl p (bs.drop n) := fun c hm => h c (List.mem_of_mem_drop hm)

/-! ## Scalars -/

theorem Sm.trimmed {α : Type} {P : α → Prop} {cfg : Cfg} (hc : cfg.checked = true) {b : Bytes} (hb : Cl p b) {f g : Bytes → Res α}
    (h : Cl p (trimChecked b) → Sm P (f (trimChecked b)) (g (trimChecked b))) : Sm P (trimCmt p b >>= f) (Verif.trim cfg b >>= g) := by
  rw [trimCmt_clean hb, trim_ok hc]
  exact h (not_mem_trim hb)

theorem Sm.moved {α : Type} {P : α → Prop} {cfg : Cfg} (hc : cfg.checked = true) {b : Bytes} (hb : Cl p b) {f g : Bytes → Res α}
    (h : Cl p (moveNextChecked b) → Sm P (f (moveNextChecked b)) (g (moveNextChecked b))) :
    Sm P (moveNextCmt p b >>= f) (Verif.moveNext cfg b >>= g) := by
  rw [moveNextCmt_clean hb, moveNext_ok hc]
  exact h (not_mem_moveNext hb)

variable {cfg : Cfg}

theorem parseBool_same (hc : cfg.checked = true) {bs : Bytes} (h : Cl p bs) : Sm (NR p) (parseBoolC p cfg bs) (parseBool cfg bs) := by
  refine .bind (.rest h (eatBool_safe hc bs).2) fun x hx => ?_
  exact .trimmed hc hx fun hb => .weakly hc fun _ => .pure hb

theorem skipQuote_suffix {al : Bool} {s r : Bytes} (h : skipQuote cfg al s = .ok r) : r <:+ s := by
  unfold skipQuote at h
  split at h
  · simp only [Res.bind_eq_ok] at h
    obtain ⟨_, _, h⟩ := h
    split at h
    · simp at h
    · simp at h; subst h; exact List.tail_suffix _
  · simp only [Res.bind_eq_ok] at h
    obtain ⟨_, _, c, _, h⟩ := h
    simp at h; subst h
    split
    · exact List.tail_suffix _
    · exact List.suffix_rfl

theorem parseBoolQ_same (hc : cfg.checked = true) (al : Bool) {bs : Bytes} (h : Cl p bs) :
    Sm (NR p) (parseBoolQC p cfg al bs) (parseBoolQ cfg al bs) := by
  refine .seq fun b hb => ?_
  have h1 := not_mem_suffix h (skipQuote_suffix hb)
  refine .bind (.rest h1 (eatBool_safe hc b).2) fun x hx => ?_
  refine .seq fun c hcq => ?_
  exact .trimmed hc (not_mem_suffix hx (skipQuote_suffix hcq)) fun hb => .weakly hc fun _ => .pure hb

theorem parseSigned_same (hc : cfg.checked = true) (bits : Nat) (rc : Bool) {bs : Bytes} (h : Cl p bs) :
    Sm (NR p) (parseSignedC p cfg bits rc bs) (parseSigned cfg bits rc bs) := by
  refine .weakly hc fun _ => ?_
  refine .bind (.rest h (validateSignedFirst_safe hc bs).2) fun x hx => ?_
  refine .bind (.rest hx (unsignedNotKnown_safe hc bits rc x.2).2) fun y hy => ?_
  exact .trimmed hc hy fun hb => .weakly hc fun _ => .pure hb

theorem parseInt_same (hc : cfg.checked = true) (t : IntTy) (rc : Bool) {bs : Bytes} (h : Cl p bs) :
    Sm (NR p) (parseIntC p cfg t rc bs) (parseInt cfg t rc bs) := by
  have := (parseInt_safe hc t rc bs).2
  unfold parseIntC parseInt at *
  split
  · exact parseSigned_same hc _ _ h
  · rename_i ht
    rw [if_neg ht] at this
    exact .rest h this

theorem parseLit_same (hc : cfg.checked = true) (al : Bool) (l : LitTy) {bs : Bytes} (h : Cl p bs) :
    Sm (NR p) (parseLitC p cfg al l bs) (parseLit cfg al l bs) := by
  have hs := (parseLit_safe hc al l bs).2
  cases l with
  | bool => exact .bind (parseBoolQ_same hc al h) fun x hx => .pure hx
  | int t rc =>
    unfold parseLitC parseLit at *
    simp only at hs ⊢
    cases ht : t.signed with
    | true =>
      simp only [if_true]
      refine .bind ?_ fun x hx => .pure (P := NR p) hx
      refine .seq fun b hb => ?_
      have h1 := not_mem_suffix h (skipQuote_suffix hb)
      refine .bind (.rest h1 (validateSignedFirst_safe hc b).2) fun x hx => ?_
      refine .bind (.rest hx (unsignedNotKnown_safe hc _ rc x.2).2) fun y hy => ?_
      refine .seq fun c hcq => ?_
      exact .trimmed hc (not_mem_suffix hy (skipQuote_suffix hcq)) fun hb => .weakly hc fun _ => .pure hb
    | false =>
      rw [ht] at hs
      exact .rest h hs

theorem eatNull_same (hc : cfg.checked = true) {bs : Bytes} (h : Cl p bs) :
    Sm (fun o => ∀ r, o = some r → Cl p r) (eatNullC p bs) (eatNull cfg bs) := by
  unfold eatNullC eatNull
  rw [if_pos hc]
  refine .ite (fun _ => .pure (by rintro _ ⟨⟩; exact h)) fun _ => ?_
  refine .ite (fun _ => .ensure fun _ => ?_) fun _ => .pure (by rintro _ ⟨⟩)
  rw [trimCmt_clean (not_mem_drop _ h)]
  exact .pure (by rintro _ ⟨⟩; exact not_mem_trim (not_mem_drop _ h))

/-! ### The end of a real -/

theorem whileNumber_suffix (n v : Nat) (s : Bytes) : (whileNumber n v s).2 <:+ s := by
  induction s generalizing n v with
  | nil => simp [whileNumber]
  | cons c s ih =>
    cases n with
    | zero => simp [whileNumber]
    | succ n =>
      rw [whileNumber]
      split
      · exact (ih _ _).trans (List.suffix_cons _ _)
      · exact List.suffix_rfl

theorem untilNonDigit_suffix {zt : Bool} {v : Nat} {s : Bytes} {r : Nat × Bytes} (h : untilNonDigit zt v s = .ok r) : r.2 <:+ s := by
  induction s generalizing v with
  | nil =>
    unfold untilNonDigit at h
    split at h
    · simp at h; subst h; simp
    · simp at h
  | cons c s ih =>
    rw [untilNonDigit] at h
    split at h
    · exact (ih h).trans (List.suffix_cons _ _)
    · simp at h; subst h; exact List.suffix_rfl

theorem digitsWhile_suffix {rc : RCfg} {n v : Nat} {s : Bytes} {r : Nat × Bytes} (h : digitsWhile rc n v s = .ok r) : r.2 <:+ s := by
  unfold digitsWhile at h
  split at h
  · exact untilNonDigit_suffix h
  · simp at h; subst h; exact whileNumber_suffix _ _ _

theorem skipDigits_suffix' (s : Bytes) : skipDigits s <:+ s := by
  obtain ⟨x, hx, -⟩ := skipDigits_split s
  exact ⟨x, hx.symm⟩

theorem skipDigitsR_suffix {rc : RCfg} {s r : Bytes} (h : skipDigitsR rc s = .ok r) : r <:+ s := by
  cases s with
  | nil =>
    rw [skipDigitsR] at h
    split at h
    · simp at h; subst h; simp
    · simp at h
  | cons c s =>
    rw [skipDigitsR] at h
    split at h
    · simp only [Res.bind_eq_ok] at h
      obtain ⟨x, hx, h⟩ := h
      simp at h; subst h
      exact untilNonDigit_suffix hx
    · simp at h; subst h; exact skipDigits_suffix' _

theorem realUnknown_suffix {rc : RCfg} (hc : rc.base.checked = true) {s : Bytes} {x : RealOut} {r : Bytes} (h : realUnknown rc s = .ok (x, r)) : r <:+ s := by
  unfold realUnknown at h
  simp only [Res.bind_eq_ok] at h
  obtain ⟨_, _, ⟨sg, b⟩, h1, ⟨sig, p1, s1, b2⟩, h2, ⟨sig', p1', s1', b3⟩, h3, ⟨p2, b4⟩, h4, e, _, h⟩ := h
  simp only [Res.ok.injEq, Prod.mk.injEq] at h
  obtain ⟨-, rfl⟩ := h
  have e1 : b <:+ s := (validateSignedFirst_safe hc s).2 _ _ h1
  have e2 : b2 <:+ b := by
    unfold unkWhole at h2
    simp only [Res.bind_eq_ok] at h2
    obtain ⟨⟨q, b1⟩, hq, h2⟩ := h2
    have := digitsWhile_suffix hq
    split at h2
    · simp only [Res.bind_eq_ok] at h2
      obtain ⟨b', hb', h2⟩ := h2
      simp only [Res.ok.injEq, Prod.mk.injEq] at h2
      obtain ⟨-, -, -, rfl⟩ := h2
      exact (skipDigitsR_suffix hb').trans this
    · simp only [Res.ok.injEq, Prod.mk.injEq] at h2
      obtain ⟨-, -, -, rfl⟩ := h2
      exact this
  have e3 : b3 <:+ b2 := by
    unfold unkFrac at h3
    split at h3
    · simp only [Res.ok.injEq, Prod.mk.injEq] at h3
      obtain ⟨-, -, -, rfl⟩ := h3
      exact List.suffix_rfl
    · simp only [Res.bind_eq_ok] at h3
      obtain ⟨c, _, h3⟩ := h3
      split at h3
      · refine List.IsSuffix.trans ?_ (List.tail_suffix b2)
        unfold unkFracDigits at h3
        split at h3
        · split at h3
          · simp only [Res.ok_bind, Res.ok.injEq, Prod.mk.injEq] at h3
            obtain ⟨-, -, -, rfl⟩ := h3
            exact List.suffix_rfl
          · simp only [Res.bind_eq_ok] at h3
            obtain ⟨b', hb', h3⟩ := h3
            simp only [Res.ok.injEq, Prod.mk.injEq] at h3
            obtain ⟨-, -, -, rfl⟩ := h3
            exact skipDigitsR_suffix hb'
        · simp only [Res.bind_eq_ok] at h3
          obtain ⟨⟨q, b1⟩, hq, h3⟩ := h3
          have := digitsWhile_suffix hq
          split at h3
          · simp only [Res.bind_eq_ok] at h3
            obtain ⟨b', hb', h3⟩ := h3
            simp only [Res.ok.injEq, Prod.mk.injEq] at h3
            obtain ⟨-, -, -, rfl⟩ := h3
            exact (skipDigitsR_suffix hb').trans this
          · simp only [Res.ok.injEq, Prod.mk.injEq] at h3
            obtain ⟨-, -, -, rfl⟩ := h3
            exact this
      · simp only [Res.ok.injEq, Prod.mk.injEq] at h3
        obtain ⟨-, -, -, rfl⟩ := h3
        exact List.suffix_rfl
  have e4 : b4 <:+ b3 := by
    unfold unkExp at h4
    split at h4
    · simp only [Res.ok.injEq, Prod.mk.injEq] at h4
      obtain ⟨-, rfl⟩ := h4
      exact List.suffix_rfl
    · simp only [Res.bind_eq_ok] at h4
      obtain ⟨c, _, h4⟩ := h4
      split at h4
      · simp only [Res.bind_eq_ok] at h4
        obtain ⟨⟨sg, d⟩, hd, _, _, ⟨y, r⟩, hr, h4⟩ := h4
        simp only [Res.ok.injEq, Prod.mk.injEq] at h4
        obtain ⟨-, rfl⟩ := h4
        refine (digitsWhile_suffix hr).trans (List.IsSuffix.trans ?_ (List.tail_suffix b3))
        unfold unkExpSign at hd
        simp only [Res.bind_eq_ok] at hd
        obtain ⟨_, _, c', _, hd⟩ := hd
        have ht := List.tail_suffix b3.tail
        repeat' split at hd
        all_goals
          simp only [Res.bind_eq_ok] at hd
          obtain ⟨_, _, hd⟩ := hd
          simp only [Res.ok.injEq, Prod.mk.injEq] at hd
          obtain ⟨-, rfl⟩ := hd
          first | exact ht | exact List.suffix_rfl
      · simp only [Res.ok.injEq, Prod.mk.injEq] at h4
        obtain ⟨-, rfl⟩ := h4
        exact List.suffix_rfl
  exact e4.trans (e3.trans (e2.trans e1))

/-! ### Text -/

theorem skipLiteral_same (hc : cfg.checked = true) {bs : Bytes} (h : Cl p bs) :
    Sm (NR p) (skipLiteralCmt p cfg bs) (skipLiteral cfg bs) := by
  have hs := (skipLiteral_safe hc bs).2
  unfold skipLiteralCmt
  cases bs with
  | nil => rw [skipLiteral, hc]; trivial
  | cons c cs =>
    split
    · rename_i hh
      simp only [headIs, Bool.or_eq_true, beq_iff_eq] at hh
      rw [skipLiteral, hc]
      rcases hh with (rfl | rfl) | rfl <;> trivial
    · rename_i hh
      simp only [headIs, Bool.or_eq_true, beq_iff_eq, not_or] at hh
      have e : skipLiteralCmt p cfg (c :: cs) = skipValue cfg false (c :: cs) := by
        rw [skipLiteralCmt, if_neg (by simp [headIs, hh.1.1, hh.1.2, hh.2]), skipValueCmt_clean hc false h]
      rw [skipValueCmt_clean hc false h]
      have e2 : Sm (fun _ => True) (skipValue cfg false (c :: cs)) (skipLiteral cfg (c :: cs)) := by
        unfold skipValue skipLiteral
        rw [hc]
        simp only [List.isEmpty_cons, Bool.not_false, assertWeak_tt, Res.ok_bind, deref_cons, hh.1.1, hh.1.2, hh.2, if_false]
        refine .ite (fun _ => .same fun _ _ => trivial) fun _ => ?_
        refine .ite (fun _ => .same fun _ _ => trivial) fun _ => ?_
        refine .ite (fun _ => .same fun _ _ => trivial) fun _ => ?_
        refine .ite (fun _ => .same fun _ _ => trivial) fun _ => ?_
        by_cases h0 : c = 0 <;> simp [h0, Sm]
      cases e3 : skipLiteral cfg (c :: cs) with
      | ok x =>
        rw [(e2.ok_iff x).2 e3]
        exact .pure (not_mem_suffix h (hs _ _ e3))
      | err =>
        rw [e3] at e2
        cases e4 : skipValue cfg false (c :: cs) with
        | ok x => rw [e4] at e2; exact e2.elim
        | _ => trivial
      | ub =>
        rw [e3] at e2
        cases e4 : skipValue cfg false (c :: cs) with
        | ok x => rw [e4] at e2; exact e2.elim
        | _ => trivial

theorem skipValue_same (hc : cfg.checked = true) (kq : Bool) {bs : Bytes} (h : Cl p bs) :
    Sm (NR p) (skipValueCmt p cfg.exclSpecial kq bs) (skipValue cfg kq bs) := by
  rw [skipValueCmt_clean hc kq h]
  exact .rest h (skipValue_safe hc kq bs).2

theorem parseTxt_same (hc : cfg.checked = true) (k : TxtKind) {bs : Bytes} (h : Cl p bs) :
    Sm (NR p) (parseTxtC p cfg k bs) (parseTxt cfg k bs) := by
  cases k with
  | rawStr ah =>
    refine .rest h fun v r he' => ?_
    have he : parseTxt cfg (.rawStr ah) bs = .ok (v, r) := he'
    unfold parseTxt at he
    simp only [Res.bind_eq_ok] at he
    obtain ⟨⟨x, y⟩, he, h2⟩ := he
    simp at h2
    obtain ⟨-, rfl⟩ := h2
    exact (skipString_safe hc _ _).2 _ _ he
  | date =>
    refine .rest h fun v r he' => ?_
    have he : parseTxt cfg (.date) bs = .ok (v, r) := he'
    unfold parseTxt parseDate at he
    simp only [Res.bind_eq_ok] at he
    obtain ⟨⟨x, y⟩, ⟨_, _, ⟨x', y'⟩, he, q, _, h3⟩, h2⟩ := he
    simp at h2 h3
    obtain ⟨-, rfl⟩ := h2
    obtain ⟨-, rfl⟩ := h3
    exact (skipString_safe hc _ _).2 _ _ he
  | real dbl f =>
    refine .rest h fun v r he' => ?_
    have he : parseTxt cfg (.real dbl f) bs = .ok (v, r) := he'
    unfold parseTxt parseReal at he
    simp only [Res.bind_eq_ok] at he
    obtain ⟨⟨x, y⟩, ⟨⟨x', y'⟩, he, q, _, h3⟩, h2⟩ := he
    simp at h2 h3
    obtain ⟨-, rfl⟩ := h2
    obtain ⟨-, rfl⟩ := h3
    exact realUnknown_suffix (rc := cfg.real false dbl) hc he
  | raw => exact .bind (skipValue_same hc true h) fun x hx => .pure hx
  | quoted al l => exact .bind (parseLit_same hc al l h) fun x hx => .pure hx
  | custom c =>
    have hs : Sm (NR p) (customTextC p cfg c bs) (customText cfg c bs) := by
      cases c with
      | str => exact .bind (.rest h (skipString_safe hc false bs).2) fun x hx => .pure hx
      | lit => exact .bind (skipLiteral_same hc h) fun x hx => .pure hx
      | any =>
        unfold customTextC
        simp only
        cases e : derefEnd cfg bs with
        | err => simp only [customText, e]; trivial
        | ub => simp only [customText, e]; trivial
        | ok d =>
          simp only [Res.ok_bind, customText, e]
          refine .ite (fun hd => ?_) fun _ => .bind (skipValue_same hc false h) fun x hx => .pure hx
          rw [if_pos hd]
          exact .bind (.rest h (skipString_safe hc false bs).2) fun x hx => .pure hx
    show Sm _ _ (parseCustom cfg c bs >>= _)
    unfold parseCustom
    have : ∀ (m : Res (Bytes × Bytes)), ((m >>= fun x => customStart cfg x.1 >>= fun _ => Res.ok (x.1, x.2)) >>= fun x => Res.ok (Val.txt x.1, x.2))
        = (m >>= fun x => customStart cfg x.1 >>= fun _ => Res.ok (Val.txt x.1, x.2)) := by
      intro m
      cases m with
      | ok x => simp only [Res.ok_bind]; cases customStart cfg x.1 <;> rfl
      | _ => rfl
    refine (this (customText cfg c bs)).symm ▸ ?_
    exact .bind hs fun x hx => .seq fun _ _ => .pure hx

end Verif
