import Verif.Proof.TypedSafe

/-!
# Checked parsing to classes: no read outside of the text
-/

namespace Verif

open Spec

/-- A stored range of a value inside of a text shorter than `n`, with what follows it. -/
def RangeOk (k : Kinds) (cfg : Cfg) (n : Nat) (r : Range) (a : Bytes) : Prop :=
  r.text.length < n ∧ (r.counter < 2 ^ 63 → r.counter ≤ r.text.length) ∧ (r.quoted = true → ∃ c, a = chQuote :: c) ∧
    (r.quoted = false → r.text ≠ [] ∧ EndOk k cfg r.text ∧ headIs (· == chQuote) r.text = false)

/-- The stored ranges of a class. -/
def LocsSafe (k : Kinds) (cfg : Cfg) (n : Nat) (locs : Locs) : Prop := ∀ r a, some (r, a) ∈ locs → RangeOk k cfg n r a

/-- Behind every stored range there is a quote. -/
def LocsQuoted (locs : Locs) : Prop := ∀ r a, some (r, a) ∈ locs → QuoteAhead a

theorem setLoc_mem {locs : Locs} {n : Nat} {r r' : Range} {a a' : Bytes} (h : some (r', a') ∈ setLoc locs n r a) :
    some (r', a') ∈ locs ∨ (r.null = false ∧ r' = r ∧ a' = a) := by
  unfold setLoc at h
  rcases List.mem_or_eq_of_mem_set h with h | h
  · exact Or.inl h
  · right
    cases hn : r.null with
    | true => rw [hn] at h; simp at h
    | false => rw [hn] at h; simp at h; exact ⟨rfl, h.1, h.2⟩

theorem skipped_rangeOk {k : Kinds} {cfg : Cfg} (hc : cfg.checked = true) {b rest : Bytes} {r : Range}
    (h : skipValue cfg false b = .ok (r, rest)) (hn : r.null = false) (he : EndOk k cfg b) {n : Nat} (hl : b.length < n) :
    RangeOk k cfg n (markRange b r) (afterRange b r) ∧
      (headIs (· == chQuote) (moveNextChecked rest) = true → QuoteAhead (afterRange b r)) := by
  rcases skipValue_skipped hc h with ⟨hq, hb, hk⟩ | ⟨hq, hnull | ⟨h1, h2, w, h3, h4, h5⟩⟩
  · have ha : afterRange b r = chQuote :: rest := by
      unfold afterRange
      rw [if_pos hq]
      rw [hb, List.drop_succ_cons, List.drop_left]
    refine ⟨⟨?_, hk, fun _ => ⟨rest, ha⟩, fun hf => ?_⟩, fun _ => by rw [ha]; exact .quote rest⟩
    · have := congrArg List.length hb
      simp only [List.length_cons, List.length_append] at this
      change r.text.length < n
      omega
    · change headIs _ b = false at hf
      rw [hq] at hf; cases hf
  · rw [hn] at hnull; cases hnull
  · have ha : afterRange b r = w ++ rest := by
      unfold afterRange
      rw [hq, h3]
      simp
    have hlen : r.text.length + (w ++ rest).length = b.length := by rw [h3]; simp
    refine ⟨⟨?_, fun _ => h2, fun hf => ?_, fun _ => ⟨h1, ?_, ?_⟩⟩, fun hm => ?_⟩
    · change r.text.length < n
      omega
    · change headIs _ b = true at hf
      rw [hq] at hf; cases hf
    · change EndOk k cfg r.text
      rcases h5 with ⟨h5, h6⟩ | h5
      · have : b = r.text := by rw [h3, h5, h6]; simp
        rw [← this]; exact he
      · exact ⟨fun _ => Or.inr (h5.not_endsIn (Or.inl rfl)), fun _ => Or.inr (h5.not_endsIn (Or.inr rfl)), he.2.2⟩
    · change headIs _ r.text = false
      rw [h3] at hq
      cases htx : r.text with
      | nil => exact absurd htx h1
      | cons c cs => rw [htx] at hq; exact hq
    · rw [ha]; exact moveNext_quoteAhead h4 hm

/-- What the search for a member leaves behind. -/
def FindOk (k : Kinds) (cfg : Cfg) (n : Nat) (W : Prop) (s : Bytes) (x : Res (Found × Locs × Bytes)) : Prop :=
  x ≠ .ub ∧ ∀ f locs b, x = .ok (f, locs, b) → b <:+ s ∧ LocsSafe k cfg n locs ∧
    (f = .here → PeekOk k cfg b ∧ (W → LocsQuoted locs)) ∧ ∀ r a, f ≠ .known r a

theorem FindOk.err {k : Kinds} {cfg : Cfg} {n : Nat} {W : Prop} {s : Bytes} (e : Err) : FindOk k cfg n W s (.err e) :=
  ⟨by simp, fun _ _ _ h => by cases h⟩

theorem FindOk.weak {k : Kinds} {cfg : Cfg} {n : Nat} {W : Prop} {s r : Bytes} {x : Res (Found × Locs × Bytes)}
    (h : FindOk k cfg n W r x) (hr : r <:+ s) : FindOk k cfg n W s x :=
  ⟨h.1, fun f locs b he => ⟨(h.2 f locs b he).1.trans hr, (h.2 f locs b he).2⟩⟩

theorem FindOk.seq {α : Type} {k : Kinds} {cfg : Cfg} {n : Nat} {W : Prop} {s : Bytes} {x : Res α} {f : α → Res (Found × Locs × Bytes)}
    (h : x ≠ .ub) (hf : ∀ a, x = .ok a → FindOk k cfg n W s (f a)) : FindOk k cfg n W s (x >>= f) := by
  cases x with
  | ok a => exact hf a rfl
  | err e => exact .err _
  | ub => exact absurd rfl h

theorem findLoop_safe {k : Kinds} {t : TCfg} (hc : t.cfg.checked = true) {n : Nat} (W : Prop) (exact : Bool) (names : List Bytes)
    (pos : Nat) (locs : Locs) (s : Bytes) (hn : s.length < n) (he : EndOk k t.cfg s) (hl : LocsSafe k t.cfg n locs)
    (hq : W → headIs (· == chQuote) s = true → LocsQuoted locs) :
    FindOk k t.cfg n W s (findLoop t exact names pos locs s) := by
  induction hm : s.length using Nat.strongRecOn generalizing s locs with
  | _ m ih =>
    subst hm
    rw [findLoop.eq_def]
    cases s with
    | nil => exact ⟨by simp, fun f l b h => by cases h; exact ⟨List.suffix_rfl, hl, by simp, by simp⟩⟩
    | cons c cs =>
      dsimp only
      split
      · exact ⟨by simp, fun f l b h => by cases h; exact ⟨List.suffix_rfl, hl, by simp, by simp⟩⟩
      obtain ⟨p1, p2⟩ := parseName_safe hc (c :: cs)
      refine .seq p1 fun a ha => ?_
      obtain ⟨name, b⟩ := a
      obtain ⟨p3, p4, p5⟩ := p2 name b ha
      have hbe := he.suffix p4.1
      have hlt := p4.2
      have hquo : W → LocsQuoted locs := fun w => hq w p3
      dsimp only
      split
      · exact .err _
      split
      · refine .seq (skipValue_ne_ub hc _ _) fun a ha2 => ?_
        obtain ⟨r, b₂⟩ := a
        unfold moveNext
        rw [if_pos hc]
        have h2 := skipValue_later ha2
        have h3 := moveNextChecked_suffix b₂
        have hlen : (moveNextChecked b₂).length < (c :: cs).length := by
          have := h3.length_le; have := h2.2; dsimp only at *; omega
        simp only [Res.ok_bind]
        rw [dif_pos hlen]
        have hsf : moveNextChecked b₂ <:+ c :: cs := h3.trans (h2.1.trans p4.1)
        exact (ih _ hlen _ _ (by omega) (he.suffix hsf) hl (fun w _ => hquo w) rfl).weak hsf
      split
      · refine ⟨by simp, fun f l b' h => ?_⟩
        cases h
        exact ⟨p4.1, hl, fun _ => ⟨fun hk => (he.2.1 hk).imp id fun h hb => h (p5 hb), hquo⟩, by simp⟩
      · refine .seq (skipValue_ne_ub hc _ _) fun a ha2 => ?_
        obtain ⟨r, b₂⟩ := a
        rw [if_neg (by simp [hc])]
        unfold moveNext
        rw [if_pos hc]
        have h2 := skipValue_later ha2
        have h3 := moveNextChecked_suffix b₂
        have hlen : (moveNextChecked b₂).length < (c :: cs).length := by
          have := h3.length_le; have := h2.2; dsimp only at *; omega
        simp only [Res.ok_bind]
        rw [dif_pos hlen]
        have hsf : moveNextChecked b₂ <:+ c :: cs := h3.trans (h2.1.trans p4.1)
        refine (ih _ hlen _ _ (by omega) (he.suffix hsf) ?_ ?_ rfl).weak hsf
        · intro r' a' hmem
          rcases setLoc_mem hmem with hmem | ⟨h4, rfl, rfl⟩
          · exact hl r' a' hmem
          · exact (skipped_rangeOk hc ha2 h4 hbe (by omega)).1
        · intro w hh r' a' hmem
          rcases setLoc_mem hmem with hmem | ⟨h4, rfl, rfl⟩
          · exact hquo w r' a' hmem
          · exact (skipped_rangeOk (n := n) hc ha2 h4 hbe (by omega)).2 hh

theorem classMembers_safe {k : Kinds} {t : TCfg} (hc : t.cfg.checked = true) {n : Nat} (exact : Bool) (names : List Bytes)
    {pU : Ty → Bytes → Res (Val × Bytes)} {pK : Ty → Range → Bytes → Res Val} (pos : Nat) (ms : List Member)
    (hU : ∀ m ∈ ms, SafeBelow k t.cfg n (pU m.ty))
    (hK : ∀ m ∈ ms, ∀ r a, RangeOk k t.cfg n r a → (IsStrTy m.ty → QuoteAhead a) → pK m.ty r a ≠ .ub)
    (hs : StringsFirst ms) (locs : Locs) (s : Bytes) (hn : s.length < n) (he : EndOk k t.cfg s) (hl : LocsSafe k t.cfg n locs)
    (hq : (∃ x ∈ ms, IsStrTy x.ty) → LocsQuoted locs) :
    Safe0 s (classMembers t exact names pU pK pos ms locs s) := by
  induction ms generalizing pos locs s with
  | nil => exact .pure _ List.suffix_rfl
  | cons m ms ih =>
    unfold classMembers
    refine .moveNext hc ?_
    have hb := moveNextChecked_suffix s
    generalize moveNextChecked s = b at hb
    refine .weakly hc fun hh => ?_
    have hbl := hb.length_le
    have hbe := he.suffix hb
    have htrim : trimUnchecked b = .ok b := by
      cases b with
      | nil => simp [headIs] at hh
      | cons c cs =>
        simp only [headIs, Bool.or_eq_true, beq_iff_eq] at hh
        rw [trimUnchecked, if_neg]
        rcases hh with rfl | rfl <;> decide
    unfold findMember
    cases hloc : (locs[pos]?).join with
    | some ra =>
      obtain ⟨r, a⟩ := ra
      have hmem : some (r, a) ∈ locs := by
        cases hg : locs[pos]? with
        | none => rw [hg] at hloc; simp at hloc
        | some o =>
          rw [hg] at hloc
          simp at hloc; subst hloc
          exact List.mem_of_getElem? hg
      simp only [Option.isSome_some, Bool.or_true, Bool.true_or, assertWeak_ok, Res.ok_bind, htrim]
      refine .seq (Res.bind_ne_ub (hK m (by simp) r a (hl r a hmem) fun hst => hq ⟨m, by simp, hst⟩ r a hmem) fun _ _ => by simp)
        fun vb hvb => ?_
      rw [Res.bind_eq_ok] at hvb
      obtain ⟨v, -, hvb⟩ := hvb
      simp only [Res.ok.injEq] at hvb
      subst hvb
      refine ((ih _ (fun x hx => hU x (by simp [hx])) (fun x hx => hK x (by simp [hx])) hs.2 _ b (by omega) hbe hl
        (fun ⟨x, hx, hxs⟩ => hq ⟨x, by simp [hx], hxs⟩)).weak hb).bind fun vs r' _ hr => ?_
      exact .pure _ hr
    | none =>
      have hfind := findLoop_safe (k := k) hc (n := n) (∃ x ∈ m :: ms, IsStrTy x.ty) exact names pos locs b (by omega) hbe hl
        (fun w _ => hq w)
      refine .seq (Res.bind_ne_ub (assertWeak_ne_ub _ _ _) fun _ _ => ?_) fun fl hfl => ?_
      · rw [htrim]
        exact hfind.1
      obtain ⟨f, locs', b'⟩ := fl
      rw [Res.bind_eq_ok] at hfl
      obtain ⟨_, -, hfl⟩ := hfl
      rw [htrim] at hfl
      simp only [Res.ok_bind] at hfl
      obtain ⟨f1, f2, f3, f4⟩ := hfind.2 f locs' b' hfl
      have hb's : b' <:+ s := f1.trans hb
      have hb'l := f1.length_le
      have next : ∀ (v : Val) (c : Bytes), c <:+ b' → ((∃ x ∈ ms, IsStrTy x.ty) → LocsQuoted locs') →
          Safe0 s (do
            let __discr ← classMembers t exact names pU pK (pos + 1) ms locs' c
            Res.ok (v :: __discr.1, __discr.2)) := by
        intro v c hcb hqq
        have hcl := hcb.length_le
        refine ((ih _ (fun x hx => hU x (by simp [hx])) (fun x hx => hK x (by simp [hx])) hs.2 _ c (by omega)
          (he.suffix (hcb.trans hb's)) f2 hqq).weak (hcb.trans hb's)).bind fun vs r' _ hr => ?_
        exact .pure _ hr
      cases f with
      | known r a => exact absurd rfl (f4 r a)
      | here =>
        dsimp only
        obtain ⟨g1, g2⟩ := f3 rfl
        have hsafe := hU m (by simp) b' (by omega) (he.suffix hb's) g1
        refine .seq hsafe.1 fun vc hvc => ?_
        obtain ⟨v, c⟩ := vc
        exact next v c (hsafe.2 _ _ hvc) fun ⟨x, hx, hxs⟩ => g2 ⟨x, by simp [hx], hxs⟩
      | absent =>
        dsimp only
        split
        · rename_i hopt
          exact next .none b' List.suffix_rfl fun ⟨x, hx, hxs⟩ => absurd hxs (hs.1 hopt x hx)
        · exact .err _ _

theorem moveToNextClassMember_safe {cfg : Cfg} (hc : cfg.checked = true) (s : Bytes) :
    moveToNextClassMember cfg s ≠ .ub ∧ ∀ r, moveToNextClassMember cfg s = .ok r → r <:+ s := by
  induction s with
  | nil => simp [moveToNextClassMember, hc]
  | cons c s ih =>
    unfold moveToNextClassMember
    split
    · exact ⟨by simp, fun r h => by cases h; exact List.suffix_rfl⟩
    · exact ⟨ih.1, fun r h => (ih.2 r h).trans (List.suffix_cons _ _)⟩

theorem classCleanup_safe {cfg : Cfg} (hc : cfg.checked = true) (exact : Bool) (s : Bytes) :
    classCleanup cfg exact s ≠ .ub ∧ ∀ r, classCleanup cfg exact s = .ok r → r <:+ s := by
  unfold classCleanup moveNext
  rw [if_pos hc]
  simp only [Res.ok_bind]
  obtain ⟨h1, h2⟩ := moveToNextClassMember_safe hc (moveNextChecked s)
  refine ⟨?_, fun r h => ?_⟩
  · refine Res.bind_ne_ub (assertWeak_ne_ub _ _ _) fun _ _ => Res.bind_ne_ub h1 fun b _ => ?_
    split
    · exact Res.bind_ne_ub (assertWeak_ne_ub _ _ _) fun _ _ => by simp
    · exact Res.bind_ne_ub (skipBracketed_ne_ub hc _ _) fun _ _ => by simp
  · simp only [Res.bind_eq_ok] at h
    obtain ⟨_, _, b, hb, h⟩ := h
    have hbs := (h2 b hb).trans (moveNextChecked_suffix s)
    split at h
    · simp only [Res.bind_eq_ok] at h
      obtain ⟨_, _, h⟩ := h
      simp only [Res.ok.injEq] at h
      subst h
      exact ((trimChecked_suffix _).trans (List.tail_suffix _)).trans hbs
    · simp only [Res.bind_eq_ok] at h
      obtain ⟨⟨q, d⟩, hd, h⟩ := h
      simp only [Res.ok.injEq] at h
      subst h
      exact ((trimChecked_suffix _).trans ((skipBracketed_safe hc _ b).2 _ _ hd)).trans hbs

theorem parseObj_safe {k : Kinds} {t : TCfg} (hc : t.cfg.checked = true) (exact : Bool) {pU : Ty → Bytes → Res (Val × Bytes)}
    {pK : Ty → Range → Bytes → Res Val} (ms : List Member) (s : Bytes)
    (hU : ∀ m ∈ ms, SafeBelow k t.cfg s.length (pU m.ty))
    (hK : ∀ m ∈ ms, ∀ r a, RangeOk k t.cfg s.length r a → (IsStrTy m.ty → QuoteAhead a) → pK m.ty r a ≠ .ub)
    (hs : StringsFirst ms) (he : EndOk k t.cfg s) : Safe0 s (parseObj t exact ms pU pK s) := by
  unfold parseObj
  refine .trim hc ?_
  refine .weakly hc fun hh => ?_
  obtain ⟨h1, h2⟩ := lbrack_split hh
  refine .trim hc ?_
  have hm : trimChecked (trimChecked s).tail <:+ s := (trimChecked_suffix _).trans h1
  have hl := (trimChecked_suffix (trimChecked s).tail).length_le
  have hnone : ∀ r a, (some (r, a) : Option (Range × Bytes)) ∉ ms.map fun _ => none := by
    intro r a h
    simp at h
  refine ((classMembers_safe hc exact _ 0 ms hU hK hs _ _ (by omega) (he.suffix hm) (fun r a h => absurd h (hnone r a))
    (fun _ r a h => absurd h (hnone r a))).weak hm).bind fun vs b _ hb => ?_
  dsimp only
  obtain ⟨h3, h4⟩ := classCleanup_safe hc exact b
  refine .seq h3 fun c hcc => ?_
  exact .pure _ ((h4 c hcc).trans hb)

/-! ## Dispatch -/

theorem findAlt_mem {Δ : Env} {b : BaseTy} {n : Nat} {alts : List Ty} {a : Nat × Ty} (h : findAlt Δ b n alts = some a) :
    a.2 ∈ alts ∧ underlying Δ a.2 = some b := by
  induction alts generalizing n with
  | nil => simp [findAlt] at h
  | cons ty ts ih =>
    unfold findAlt at h
    split at h
    · rename_i hu
      simp at h; subst h
      exact ⟨by simp, hu⟩
    · obtain ⟨h1, h2⟩ := ih h
      exact ⟨by simp [h1], h2⟩

theorem altOfBase_safe (Δ : Env) (alts : List Ty) (b : BaseTy) :
    altOfBase Δ alts b ≠ .ub ∧ ∀ a, altOfBase Δ alts b = .ok a → a.2 ∈ alts ∧ underlying Δ a.2 = some b := by
  unfold altOfBase
  split
  · rename_i a h
    exact ⟨by simp, fun a' he => by cases he; exact findAlt_mem h⟩
  · simp

theorem altOfChar_safe {cfg : Cfg} (hc : cfg.checked = true) (Δ : Env) (alts : List Ty) (c : UInt8) :
    altOfChar cfg Δ alts c ≠ .ub ∧ ∀ a, altOfChar cfg Δ alts c = .ok a → a.2 ∈ alts ∧ underlying Δ a.2 = baseOfChar c := by
  unfold altOfChar
  split
  · rename_i b hb
    rw [hb]
    exact altOfBase_safe Δ alts b
  · rw [if_pos hc]
    simp

theorem altOfTag_safe {cfg : Cfg} (hc : cfg.checked = true) (sw : Val → Nat) (alts : List Ty) (x : Val) :
    altOfTag cfg sw alts (.cls [x]) ≠ .ub ∧ ∀ a, altOfTag cfg sw alts (.cls [x]) = .ok a → a.2 ∈ alts := by
  unfold altOfTag
  split
  · rename_i y heq
    cases heq
    split
    · rename_i ty h
      exact ⟨by simp, fun a he => by cases he; exact List.mem_of_getElem? h⟩
    · rw [if_pos hc]; simp
  · rename_i h
    exact absurd rfl (h x)

theorem classMembers_length {t : TCfg} {exact : Bool} {names : List Bytes} {pU : Ty → Bytes → Res (Val × Bytes)}
    {pK : Ty → Range → Bytes → Res Val} {pos : Nat} {ms : List Member} {locs : Locs} {s : Bytes} {r : List Val × Bytes}
    (h : classMembers t exact names pU pK pos ms locs s = .ok r) : r.1.length = ms.length := by
  induction ms generalizing pos locs s r with
  | nil => simp only [classMembers, Res.ok.injEq] at h; subst h; rfl
  | cons m ms ih =>
    unfold classMembers at h
    simp only [Res.bind_eq_ok] at h
    obtain ⟨_, _, _, _, _, _, _, _, ⟨vs, b⟩, h1, h⟩ := h
    simp only [Res.ok.injEq] at h
    subst h
    simp [ih h1]

theorem parseObj_one {t : TCfg} {exact : Bool} {pU : Ty → Bytes → Res (Val × Bytes)} {pK : Ty → Range → Bytes → Res Val}
    {m : Member} {s : Bytes} {r : Val × Bytes} (h : parseObj t exact [m] pU pK s = .ok r) : ∃ x, r.1 = .cls [x] := by
  unfold parseObj at h
  simp only [Res.bind_eq_ok] at h
  obtain ⟨_, _, _, _, _, _, ⟨vs, b⟩, h1, _, _, h⟩ := h
  have hl := classMembers_length h1
  simp only [Res.ok.injEq] at h
  subst h
  match vs, hl with
  | [x], _ => exact ⟨x, rfl⟩

theorem isStr_underlying {Δ : Env} {ty : Ty} (h : IsStrTy ty) : underlying Δ ty = some .string := by
  induction ty with
  | str => rfl
  | opt t ih => exact ih h
  | _ => exact h.elim

theorem baseOfChar_string {c : UInt8} (h : baseOfChar c = some .string) : c = chQuote := by
  unfold baseOfChar at h
  repeat' split at h
  all_goals first | assumption | cases h

theorem parseU_parseK_safe {k : Kinds} {rk : Nat → Nat} {R : Nat} {Δ : Env} {ea : Bool} (hR : Ranked rk R Δ)
    (hΔ : ∀ i, ShapeWithin k ea (Δ i)) (f : Nat) :
    (∀ (t : TCfg) (ty : Ty) (s : Bytes), t.cfg.checked = true → t.exactAll = ea → TyWithin k ty → RankOk rk R ty →
      TyRank rk ty + (R + 1) * s.length < f → EndOk k t.cfg s → PeekOk k t.cfg s → Safe0 s (parseU t Δ f ty s)) ∧
    (∀ (t : TCfg) (ty : Ty) (r : Range) (a : Bytes), t.cfg.checked = true → t.exactAll = ea → TyWithin k ty → RankOk rk R ty →
      TyRank rk ty + (R + 1) * r.text.length < f → RangeOk k t.cfg (r.text.length + 1) r a → (IsStrTy ty → QuoteAhead a) →
      parseK t Δ f ty r a ≠ .ub) := by
  induction f with
  | zero => exact ⟨fun _ _ _ _ _ _ _ h => absurd h (by omega), fun _ _ _ _ _ _ _ _ h => absurd h (by omega)⟩
  | succ f ih =>
    obtain ⟨ihU, ihK⟩ := ih
    have mulStep : ∀ {x y : Nat}, x < y → (R + 1) * x + R < (R + 1) * y := by
      intro x y h
      have := Nat.mul_le_mul_left (R + 1) (Nat.succ_le_of_lt h)
      rw [Nat.mul_succ] at this
      omega
    have below : ∀ {t : TCfg} {ty : Ty} {n : Nat}, t.cfg.checked = true → t.exactAll = ea → TyWithin k ty → RankOk rk R ty →
        (R + 1) * n ≤ f → SafeBelow k t.cfg n (parseU t Δ f ty) := by
      intro t ty n h1 h2 h3 h4 h5 s hs he hp
      have := mulStep hs
      have := h4.le
      exact ihU t ty s h1 h2 h3 h4 (by omega) he hp
    have known : ∀ {t : TCfg} {ty : Ty} {n : Nat}, t.cfg.checked = true → t.exactAll = ea → TyWithin k ty → RankOk rk R ty →
        (R + 1) * n ≤ f → ∀ r a, RangeOk k t.cfg n r a → (IsStrTy ty → QuoteAhead a) → parseK t Δ f ty r a ≠ .ub := by
      intro t ty n h1 h2 h3 h4 h5 r a hr hq
      have := mulStep hr.1
      have := h4.le
      exact ihK t ty r a h1 h2 h3 h4 (by omega) ⟨by omega, hr.2⟩ hq
    -- classes, tuples etc. in a text
    have refU : ∀ (t : TCfg) (i : Nat) (s : Bytes), t.cfg.checked = true → t.exactAll = ea → rk i + (R + 1) * s.length ≤ f →
        EndOk k t.cfg s →
        (∀ ms ex, Δ i = .obj ms ex → Safe0 s (parseObj t (ex || t.exactAll) ms (parseU t Δ f) (parseK t Δ f) s)) ∧
        (∀ ts ex, Δ i = .tup ts ex → Safe0 s (parseTup t.cfg (ex || t.exactAll) ts (parseU t Δ f) s)) ∧
        (∀ ms ex, Δ i = .ord ms ex → Safe0 s (parseOrd t.cfg (ex || t.exactAll) ms (parseU t Δ f) s)) ∧
        (∀ tag sw alts, Δ i = .ivar tag sw alts → Safe0 s (parseObj t t.exactAll [tag] (parseU t Δ f) (parseK t Δ f) s)) := by
      intro t i s hc hx hf he
      have hw := hΔ i
      have hr := (hR i).2
      refine ⟨fun ms ex hi => ?_, fun ts ex hi => ?_, fun ms ex hi => ?_, fun tag sw alts hi => ?_⟩
      · rw [hi] at hw hr
        exact parseObj_safe hc _ ms s (fun m hm => below hc hx (hw.2 m hm) (hr m hm) (by omega))
          (fun m hm => known hc hx (hw.2 m hm) (hr m hm) (by omega)) hw.1 he
      · rw [hi] at hw hr
        exact parseTup_safe hc (fun h => hw.1 (by rw [hx] at h; exact h)) ts s
          (fun m hm => below hc hx (hw.2 m hm) (hr m hm) (by omega)) he
      · rw [hi] at hw hr
        exact parseOrd_safe hc _ (he.2.2 hw.1) ms s (fun m hm => below hc hx (hw.2 m hm) (hr m hm) (by omega))
      · rw [hi] at hw hr
        refine parseObj_safe hc _ [tag] s (fun m hm => ?_) (fun m hm => ?_) ⟨by simp, trivial⟩ he
        · obtain rfl := List.mem_singleton.1 hm
          exact below hc hx hw.1 hr.1 (by omega)
        · obtain rfl := List.mem_singleton.1 hm
          exact known hc hx hw.1 hr.1 (by omega)
    constructor
    · intro t ty s hc hx hty hrk hf he hp
      rw [parseU.eq_def]
      dsimp only
      cases ty with
      | bool => exact (parseBool_safe hc s).bind fun v r _ hr => .pure _ hr
      | int ity rc => exact (parseInt_safe hc ity rc s).bind fun v r _ hr => .pure _ hr
      | str ah => exact (parseStr_safe hc ah s).1.bind fun v r _ hr => .pure _ hr
      | txt x => exact parseTxt_safe hc hty hp
      | opt ty =>
        obtain ⟨h1, h2⟩ := eatNull_safe hc s
        refine .seq h1 fun o ho => ?_
        simp only [RankOk, TyRank] at hrk hf
        cases o with
        | some r => exact .pure _ (h2 r ho)
        | none => exact (ihU t ty s hc hx hty hrk.2 (by omega) he hp).bind fun v r _ hr => .pure _ hr
      | arr ty =>
        simp only [RankOk, TyRank] at hrk hf
        exact parseArr_safe hc hty.1 s (below hc hx hty.2 hrk (by omega)) he
      | map ty =>
        simp only [RankOk, TyRank] at hrk hf
        exact parseMap_safe hc s (below hc hx hty hrk (by omega)) he
      | ref i =>
        simp only [RankOk, TyRank] at hrk hf
        obtain ⟨r1, r2, r3, r4⟩ := refU t i s hc hx (by omega) he
        have hw := hΔ i
        have hr := (hR i).2
        dsimp only
        cases hi : Δ i with
        | obj ms ex =>
          exact .weakly hc fun _ => (r1 ms ex hi).bind fun v r _ hr => .pure _ ((trimChecked_suffix r).trans hr)
        | tup ts ex => exact r2 ts ex hi
        | ord ms ex =>
          exact .weakly hc fun _ => (r3 ms ex hi).bind fun v r _ hr => .pure _ ((trimChecked_suffix r).trans hr)
        | var alts =>
          rw [hi] at hw hr
          refine .seq (derefEnd_ne_ub (hp hw.1)) fun c _ => ?_
          obtain ⟨h1, h2⟩ := altOfChar_safe hc Δ alts c
          refine .seq h1 fun a ha => ?_
          have hm := (h2 a ha).1
          have hlt := hr _ hm
          exact (ihU t a.2 s hc hx (hw.2 _ hm) hlt.2 (by omega) he hp).bind fun v r _ hr => .pure _ hr
        | ivar tag sw alts =>
          rw [hi] at hw hr
          refine .weakly hc fun _ => .seq (r4 tag sw alts hi).1 fun xr hxr => ?_
          obtain ⟨x, r⟩ := xr
          obtain ⟨y, hy⟩ := parseObj_one hxr
          dsimp only at hy ⊢
          subst hy
          obtain ⟨h1, h2⟩ := altOfTag_safe hc sw alts y
          refine .seq h1 fun a ha => ?_
          have hm := h2 a ha
          have hlt := hr.2 _ hm
          exact (ihU t a.2 s hc hx (hw.2 _ hm) hlt.2 (by omega) he hp).bind fun v r _ hr => .pure _ hr
    · intro t ty r a hc hx hty hrk hf hra hq
      have hic : (t.inside r).cfg.checked = true := by rw [TCfg.inside_checked]; exact hc
      have hix : (t.inside r).exactAll = ea := by
        unfold TCfg.inside; split <;> exact hx
      have hends : ((t.inside r).cfg.endQuote = true ∨ r.text ≠ []) ∧ EndOk k (t.inside r).cfg r.text := by
        cases hqd : r.quoted with
        | true =>
          have : (t.inside r).cfg.endQuote = true := by unfold TCfg.inside; rw [if_pos ⟨hc, hqd⟩]
          exact ⟨Or.inl this, .of_quote _ _ this⟩
        | false =>
          rw [TCfg.inside_unquoted t hqd]
          exact ⟨Or.inr (hra.2.2.2 hqd).1, (hra.2.2.2 hqd).2.1⟩
      have hie := hends.2
      have hip : PeekOk k (t.inside r).cfg r.text := fun _ => hends.1
      have hseen : r.seen t.cfg a = r.text := by unfold Range.seen; rw [if_pos hc]
      rw [parseK.eq_def]
      dsimp only
      cases ty with
      | bool =>
        refine Res.bind_ne_ub ?_ fun _ _ => by simp
        unfold parseBoolKnown
        rw [if_pos hic]
        refine Res.bind_ne_ub (derefEnd_ne_ub hends.1) fun _ _ => ?_
        repeat' split
        all_goals simp
      | int ity rc => exact Res.bind_ne_ub (parseIntKnown_ne_ub hic ity rc hends.1) fun _ _ => by simp
      | str ah =>
        refine Res.bind_ne_ub ?_ fun _ _ => by simp
        unfold parseStrRange
        split
        · exact parseStdString_any hc ah _ _ (hq trivial) hra.2.1
        · simp
      | txt x => exact parseTxtKnown_ne_ub hc hty r _ (by simpa only [TCfg.inside_cfg] using hends.1)
      | opt ty =>
        dsimp only
        split
        · simp
        · simp only [RankOk, TyRank] at hrk hf
          exact Res.bind_ne_ub (ihK t ty r a hc hx hty hrk.2 (by omega) hra hq) fun _ _ => by simp
      | arr ty =>
        simp only [RankOk, TyRank] at hrk hf
        simp only [hseen]
        exact Res.bind_ne_ub (parseArr_safe hic hty.1 r.text (below hic hix hty.2 hrk (by omega)) hie).1 fun _ _ => by simp
      | map ty =>
        simp only [RankOk, TyRank] at hrk hf
        simp only [hseen]
        exact Res.bind_ne_ub (parseMap_safe hic r.text (below (ty := ty) hic hix hty hrk (by omega)) hie).1 fun _ _ => by simp
      | ref i =>
        simp only [RankOk, TyRank] at hrk hf
        obtain ⟨r1, r2, r3, r4⟩ := refU (t.inside r) i r.text hic hix (by omega) hie
        rw [hix] at r1 r2 r3 r4
        have hw := hΔ i
        have hr := (hR i).2
        simp only [hseen, hx]
        cases hi : Δ i with
        | obj ms ex =>
          exact Res.bind_ne_ub (assertWeak_ne_ub _ _ _) fun _ _ => Res.bind_ne_ub (r1 ms ex hi).1 fun _ _ => by simp
        | tup ts ex => exact Res.bind_ne_ub (r2 ts ex hi).1 fun _ _ => by simp
        | ord ms ex =>
          exact Res.bind_ne_ub (assertWeak_ne_ub _ _ _) fun _ _ => Res.bind_ne_ub (r3 ms ex hi).1 fun _ _ => by simp
        | var alts =>
          rw [hi] at hw hr
          have halt : altOfRange t.cfg Δ alts r ≠ .ub ∧ ∀ x, altOfRange t.cfg Δ alts r = .ok x → x.2 ∈ alts ∧ (IsStrTy x.2 → QuoteAhead a) := by
            unfold altOfRange
            cases hqd : r.quoted with
            | true =>
              obtain ⟨h1, h2⟩ := altOfBase_safe Δ alts .string
              obtain ⟨c, rfl⟩ := hra.2.2.1 hqd
              exact ⟨h1, fun x hx => ⟨(h2 x hx).1, fun _ => .quote c⟩⟩
            | false =>
              obtain ⟨g1, -, g3⟩ := hra.2.2.2 hqd
              cases htx : r.text with
              | nil => exact absurd htx g1
              | cons c cs =>
                rw [htx] at g3
                obtain ⟨h1, h2⟩ := altOfChar_safe hc Δ alts c
                refine ⟨h1, fun x hx => ⟨(h2 x hx).1, fun hs => ?_⟩⟩
                have := (h2 x hx).2
                rw [isStr_underlying hs] at this
                rw [baseOfChar_string this.symm] at g3
                simp [headIs] at g3
          refine Res.bind_ne_ub halt.1 fun x hx' => ?_
          obtain ⟨hm, hst⟩ := halt.2 x hx'
          have hlt := hr _ hm
          exact Res.bind_ne_ub (ihK t x.2 r a hc hx (hw.2 _ hm) hlt.2 (by omega) hra hst) fun _ _ => by simp
        | ivar tag sw alts =>
          rw [hi] at hw hr
          refine Res.bind_ne_ub (assertWeak_ne_ub _ _ _) fun _ _ => Res.bind_ne_ub (r4 tag sw alts hi).1 fun xr hxr => ?_
          obtain ⟨x, q⟩ := xr
          obtain ⟨y, hy⟩ := parseObj_one hxr
          dsimp only at hy ⊢
          subst hy
          obtain ⟨h1, h2⟩ := altOfTag_safe hc sw alts y
          refine Res.bind_ne_ub h1 fun x ha => ?_
          have hm := h2 x ha
          have hlt := hr.2 _ hm
          exact Res.bind_ne_ub (ihU (t.inside r) x.2 r.text hic hix (hw.2 _ hm) hlt.2 (by omega) hie hip).1 fun _ _ => by simp

/-- The text that is parsed: without a zero byte at the end, `daw_from_json.h` L52-54. -/
theorem fromJson_safe {k : Kinds} {rk : Nat → Nat} {R : Nat} {Δ : Env} {t : TCfg} (hR : Ranked rk R Δ)
    (hΔ : ∀ i, ShapeWithin k t.exactAll (Δ i)) (hc : t.cfg.checked = true) {ty : Ty} (hty : TyWithin k ty) (hrk : RankOk rk R ty)
    {s : Bytes} (he : EndOk k t.cfg (if s.getLast? = some 0 then s.dropLast else s))
    (hp : PeekOk k t.cfg (if s.getLast? = some 0 then s.dropLast else s)) {f : Nat} (hf : (R + 1) * (s.length + 1) ≤ f) :
    fromJson t Δ f ty s ≠ .ub := by
  unfold fromJson
  refine Res.bind_ne_ub (ensure_ne_ub _ _) fun _ _ => ?_
  dsimp only
  have hl : (if s.getLast? = some 0 then s.dropLast else s).length ≤ s.length := by split <;> simp
  generalize (if s.getLast? = some 0 then s.dropLast else s) = b at he hp hl
  have h1 := Nat.mul_le_mul_left (R + 1) hl
  rw [Nat.mul_succ] at hf
  refine Res.bind_ne_ub ((parseU_parseK_safe hR hΔ f).1 t ty b hc rfl hty hrk (by have := hrk.le; omega) he hp).1 fun x _ => ?_
  split
  · unfold trim
    rw [if_pos hc]
    exact Res.bind_ne_ub (by simp) fun _ _ => Res.bind_ne_ub (ensure_ne_ub _ _) fun _ _ => by simp
  · simp

end Verif
