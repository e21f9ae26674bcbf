import Verif.Proof.CommentSame

/-!
# Typed parsing with comments: texts without the comment character, containers
-/

namespace Verif

variable {p : Cmt} {t : TCfg} {cfg : Cfg}

/-! ## Names -/

theorem trimEndOfName_same (hc : cfg.checked = true) {bs : Bytes} (h : Cl p bs) :
    Sm (Cl p ·) (trimEndOfNameC p bs) (trimEndOfName cfg bs) := by
  unfold trimEndOfNameC trimEndOfName whenChecked
  rw [trimCmt_clean h, trim_ok hc, Res.ok_bind, Res.ok_bind, if_pos hc]
  have h1 := not_mem_trim h
  cases (trimChecked bs).isEmpty with
  | true => trivial
  | false =>
    simp only [Bool.not_false, ensure_true, Res.ok_bind]
    refine .ensure fun _ => ?_
    rw [trimCmt_clean (not_mem_tail h1), trim_ok hc]
    exact .pure (not_mem_trim (not_mem_tail h1))

theorem parseName_same (hc : t.cfg.checked = true) {bs : Bytes} (h : Cl p bs) :
    Sm (NR p) (parseNameC p t bs) (parseName t bs) := by
  unfold parseNameC parseName
  refine .weakly hc fun hq => ?_
  cases bs with
  | nil => simp [headIs] at hq
  | cons c cs =>
    rw [deref_cons, Res.ok_bind]
    have hcs : Cl p cs := fun c hm => h c (List.mem_cons_of_mem _ hm)
    refine .ite (fun _ => ?_) fun _ => ?_
    · refine .bind (.rest (p := p) hcs fun v r he => ?_) fun x hx => .bind (trimEndOfName_same hc hx) fun y hy => .pure hy
      simp only [skipStringNq, Res.bind_eq_ok, List.tail_cons] at he
      obtain ⟨_, _, he⟩ := he
      simp at he
      rw [← he.2]
      exact List.drop_suffix _ _
    · have h2 : Cl p ((toQuote cs).2) := not_mem_suffix hcs (toQuote_suffix cs)
      simp only [List.tail_cons]
      cases e : toQuote cs with
      | mk nm b =>
        rw [e] at h2
        refine .weakly hc fun hb => ?_
        cases b with
        | nil => simp at hb
        | cons d b =>
          rw [deref_cons, Res.ok_bind]
          exact .bind (trimEndOfName_same hc (not_mem_tail h2)) fun y hy => .pure hy

/-! ## Classes -/

/-- None of the ranges stored has the byte in it. -/
def LocsNC (p : Cmt) (locs : Locs) : Prop := ∀ (n : Nat) r a, (locs[n]?).join = some (r, a) → Cl p r.text

theorem LocsNC.set {p : Cmt} {locs : Locs} (h : LocsNC p locs) (n : Nat) {r : Range} (a : Bytes) (hr : r.null = false → Cl p r.text) :
    LocsNC p (setLoc locs n r a) := by
  intro m r' a' hm
  unfold setLoc at hm
  rw [List.getElem?_set] at hm
  split at hm
  · split at hm
    · split at hm
      · simp at hm
      · rename_i hn
        simp at hm
        obtain ⟨rfl, rfl⟩ := hm
        exact hr (by simpa using hn)
    · simp at hm
  · exact h m r' a' hm

/-- What is known of the result of looking for a member. -/
def FoundNC (p : Cmt) (x : Found × Locs × Bytes) : Prop :=
  LocsNC p x.2.1 ∧ Cl p x.2.2 ∧ ∀ r a, x.1 = .known r a → Cl p r.text

theorem skipValue_text_clean (hc : cfg.checked = true) {p : Cmt} {b rest : Bytes} {r : Range} (h : Cl p b)
    (he : skipValue cfg false b = .ok (r, rest)) : r.null = false → Cl p r.text := by
  intro hn c hm
  rcases skipValue_skipped hc he with ⟨-, e, -⟩ | ⟨-, e | ⟨-, -, w, e, -⟩⟩
  · exact h c (by rw [e]; simp [hm])
  · simp [hn] at e
  · exact h c (by rw [e]; simp [hm])

theorem findLoop_same (hc : t.cfg.checked = true) (exact : Bool) (names : List Bytes) (pos : Nat) (n : Nat) :
    ∀ (locs : Locs) (bs : Bytes), bs.length ≤ n → LocsNC p locs → Cl p bs →
      Sm (FoundNC p) (findLoopC p t exact names pos locs bs) (findLoop t exact names pos locs bs) := by
  induction n with
  | zero =>
    intro locs bs hn hl h
    obtain rfl : bs = [] := by cases bs <;> simp_all
    rw [findLoopC.eq_def, findLoop.eq_def]
    exact .pure ⟨hl, h, by rintro _ _ ⟨⟩⟩
  | succ n ih =>
    intro locs bs hn hl h
    rw [findLoopC.eq_def, findLoop.eq_def]
    cases bs with
    | nil => exact .pure ⟨hl, h, by rintro _ _ ⟨⟩⟩
    | cons c cs =>
      dsimp only
      refine .ite (fun _ => .pure ⟨hl, h, by rintro _ _ ⟨⟩⟩) fun _ => ?_
      refine .bind (parseName_same hc h) fun x hx => ?_
      refine .ite (fun _ => by rw [if_pos hc]; trivial) fun _ => ?_
      refine .ite (fun _ => ?_) fun _ => ?_
      · refine .bind (skipValue_same hc false hx) fun y hy => .moved hc hy fun hb => ?_
        refine .dite (fun hlt => ih _ _ ?_ hl hb) fun _ => trivial
        simp only [List.length_cons] at hlt hn
        omega
      refine .ite (fun _ => .pure ⟨hl, hx, by rintro _ _ ⟨⟩⟩) fun _ => ?_
      rw [skipValueCmt_clean hc false hx]
      refine .seq fun y hy => ?_
      have hy2 : Cl p y.2 := not_mem_suffix hx ((skipValue_safe hc false x.2).2 _ _ hy)
      rw [if_neg (by simp [hc])]
      refine .moved hc hy2 fun hb => ?_
      refine .dite (fun hlt => ih _ _ ?_ (hl.set _ _ fun hn => skipValue_text_clean (r := y.1) (rest := y.2) hc hx hy hn) hb) fun _ => trivial
      simp only [List.length_cons] at hlt hn
      omega

theorem findMember_same (hc : t.cfg.checked = true) (exact : Bool) (names : List Bytes) (pos : Nat) (nullable : Bool) {locs : Locs} {bs : Bytes}
    (hl : LocsNC p locs) (h : Cl p bs) (hn : bs ≠ []) :
    Sm (FoundNC p) (findMemberC p t exact names pos nullable locs bs) (findMember t exact names pos nullable locs bs) := by
  unfold findMemberC findMember
  refine .weakly hc fun _ => ?_
  rw [trimCmtUnchecked_clean h fun _ => hn]
  refine .seq fun b hb => ?_
  have h1 := not_mem_suffix h (trimUnchecked_suffix hb)
  cases e : (locs[pos]?).join with
  | some x => exact .pure ⟨hl, h1, by rintro _ _ ⟨⟩; exact hl _ _ _ e⟩
  | none => exact findLoop_same hc _ _ _ _ _ _ (Nat.le_refl _) hl h1

section
variable {pU pUC : Ty → Bytes → Res (Val × Bytes)} {pK pKC : Ty → Range → Bytes → Res Val}

theorem classMembers_same (hc : t.cfg.checked = true) (hU : ∀ ty bs, Cl p bs → Sm (NR p) (pUC ty bs) (pU ty bs))
    (hK : ∀ ty r a, Cl p r.text → Sm (fun _ => True) (pKC ty r a) (pK ty r a)) (exact : Bool) (names : List Bytes) (ms : List Member) :
    ∀ (pos : Nat) (locs : Locs) (bs : Bytes), LocsNC p locs → Cl p bs →
      Sm (NR p) (classMembersC p t exact names pUC pKC pos ms locs bs) (classMembers t exact names pU pK pos ms locs bs) := by
  induction ms with
  | nil => intro pos locs bs _ h; exact .pure h
  | cons m ms ih =>
    intro pos locs bs hl h
    unfold classMembersC classMembers
    refine .moved hc h fun h1 => .weakly hc fun hq => .bind (findMember_same hc _ _ _ _ hl h1 (by intro e; rw [e] at hq; simp [headIs] at hq)) ?_
    rintro ⟨f, locs', b⟩ ⟨hl', hb, hf⟩
    dsimp only
    refine .bind (P := NR p) ?_ fun x hx => .bind (ih _ _ _ hl' hx) fun y hy => .pure hy
    cases f with
    | here => exact hU _ _ hb
    | known r a => exact .bind (hK _ _ _ (hf _ _ rfl)) fun v _ => .pure hb
    | absent => exact .ite (fun _ => .pure hb) fun _ => trivial

theorem moveToMember_same (hc : cfg.checked = true) {bs : Bytes} (h : Cl p bs) :
    Sm (Cl p ·) (moveToMemberC p bs) (moveToNextClassMember cfg bs) := by
  induction bs with
  | nil => rw [moveToMemberC.eq_def, moveToNextClassMember, if_pos hc]; dsimp only; split <;> trivial
  | cons c cs ih =>
    have h1 : Cl p cs := fun c hm => h c (List.mem_cons_of_mem _ hm)
    rw [moveToMemberC.eq_def, moveToNextClassMember]
    refine .ite (fun _ => .pure h) fun _ => ?_
    split
    · rename_i hr
      rw [skipCmt_clean' h1] at hr
      cases hr
      exact ih h1
    all_goals rename_i hr; rw [skipCmt_clean' h1] at hr; cases hr

theorem moveToNextClassMember_same (hc : cfg.checked = true) {bs : Bytes} (h : Cl p bs) :
    Sm (Cl p ·) (moveToNextClassMemberC p bs) (moveToNextClassMember cfg bs) := by
  unfold moveToNextClassMemberC
  rw [skipCmt_clean' h, Res.ok_bind]
  cases bs with
  | nil => rw [moveToNextClassMember, if_pos hc]; trivial
  | cons c cs => exact moveToMember_same hc h

theorem skipBracketed_same (hc : cfg.checked = true) (k : Brackets) {bs : Bytes} (h : Cl p bs) :
    Sm (NR p) (skipBracketedCmt p k bs) (skipBracketed cfg k bs) := by
  have hs := (skipBracketed_safe hc k bs).2
  rw [skipBracketedCmt_clean k h]
  unfold skipBracketed at *
  rw [if_pos hc] at *
  exact .rest h hs

theorem classCleanup_same (hc : cfg.checked = true) (exact : Bool) {bs : Bytes} (h : Cl p bs) :
    Sm (Cl p ·) (classCleanupC p exact bs) (classCleanup cfg exact bs) := by
  unfold classCleanupC classCleanup
  refine .weakly hc fun _ => .moved hc h fun h1 => .bind (moveToNextClassMember_same hc h1) fun b hb => ?_
  refine .ite (fun _ => .weakly hc fun _ => ?_) fun _ => .bind (skipBracketed_same hc _ hb) fun y hy => ?_
  · rw [trimCmt_clean (not_mem_tail hb)]
    exact .pure (not_mem_trim (not_mem_tail hb))
  · dsimp only
    rw [trimCmt_clean hy]
    exact .pure (not_mem_trim hy)

theorem parseObj_same (hc : t.cfg.checked = true) (hU : ∀ ty bs, Cl p bs → Sm (NR p) (pUC ty bs) (pU ty bs))
    (hK : ∀ ty r a, Cl p r.text → Sm (fun _ => True) (pKC ty r a) (pK ty r a)) (exact : Bool) (ms : List Member) {bs : Bytes}
    (h : Cl p bs) : Sm (NR p) (parseObjC p t exact ms pUC pKC bs) (parseObj t exact ms pU pK bs) := by
  unfold parseObjC parseObj
  refine .trimmed hc h fun h1 => .weakly hc fun _ => .trimmed hc (not_mem_tail h1) fun h2 => ?_
  refine .bind (classMembers_same hc hU hK _ _ _ _ _ _ ?_ h2) fun x hx => .bind (classCleanup_same hc _ hx) fun y hy => .pure hy
  intro n r a hn
  rw [List.getElem?_map] at hn
  cases e : ms[n]? <;> simp [e] at hn

/-! ## Tuples and ordered classes -/

theorem skipMembers_same (hc : cfg.checked = true) (nl : Bool) (n : Nat) : ∀ {bs : Bytes}, Cl p bs →
    Sm (NR p) (skipMembersC p cfg n bs) (skipMembers cfg nl n bs) := by
  have ha : ∀ bs, atArrayEnd cfg nl bs = (derefEnd cfg bs >>= fun c => .ok (c == chRBrack)) := by
    intro bs
    unfold atArrayEnd
    rw [if_neg (by simp [hc])]
  induction n with
  | zero =>
    intro bs h
    rw [skipMembersC, skipMembers, ha]
    cases derefEnd cfg bs with
    | ok c => exact .pure h
    | _ => trivial
  | succ n ih =>
    intro bs h
    rw [skipMembersC, skipMembers, ha]
    cases derefEnd cfg bs with
    | ok c =>
      simp only [Res.ok_bind, beq_iff_eq]
      refine .ite (fun _ => .pure h) fun _ => ?_
      exact .bind (skipValue_same hc false h) fun x hx => .moved hc hx fun hb => .weakly hc fun _ => ih hb
    | _ => trivial

theorem maybeSkip_same (hc : cfg.checked = true) (nl : Bool) (cur want : Nat) {bs : Bytes} (h : Cl p bs) :
    Sm (NR p) (maybeSkipC p cfg cur want bs) (maybeSkip cfg nl cur want bs) :=
  .weakly hc fun _ => .bind (skipMembers_same hc nl _ h) fun _ hx => .pure hx

theorem tupMembers_same (hc : cfg.checked = true) (hU : ∀ ty bs, Cl p bs → Sm (NR p) (pUC ty bs) (pU ty bs)) (ts : List Ty) :
    ∀ {bs : Bytes}, Cl p bs → Sm (NR p) (tupMembersC p pUC ts bs) (tupMembers cfg pU ts bs) := by
  induction ts with
  | nil => intro bs h; exact .pure h
  | cons ty ts ih =>
    intro bs h
    rw [tupMembersC, tupMembers]
    exact .weakly hc fun _ => .bind (hU ty bs h) fun x hx => .moved hc hx fun hb => .bind (ih hb) fun y hy => .pure hy

theorem endTup_same (hc : cfg.checked = true) (exact : Bool) (v : Val) {bs : Bytes} (h : Cl p bs) :
    Sm (NR p) (endTupC p cfg exact bs >>= fun b => .ok (v, b))
      (if exact then do
        let b ← trim cfg bs
        let c ← derefEnd cfg b
        assertWeak cfg.checked (c == chRBrack) .unknownMember
        let b ← trim cfg b.tail
        .ok (v, b)
      else do
        let (_, b) ← skipBracketed cfg arrBr bs
        .ok (v, b)) := by
  unfold endTupC
  have h1 := not_mem_trim h
  have h2 := not_mem_tail h1
  cases exact with
  | true =>
    simp only [if_true, trimCmt_clean h, trim_ok hc, Res.ok_bind, trimCmt_clean h2, hc]
    cases derefEnd cfg (trimChecked bs) with
    | ok c =>
      simp only [Res.ok_bind]
      cases c == chRBrack with
      | true => exact .pure (not_mem_trim h2)
      | false => trivial
    | _ => trivial
  | false =>
    simp only [Bool.false_eq_true, if_false]
    have := skipBracketed_same (p := p) hc arrBr h
    have e : ∀ (m : Res (Range × Bytes)), ((m >>= fun x => Res.ok x.2) >>= fun b => Res.ok (v, b)) = (m >>= fun x => Res.ok (v, x.2)) := by
      intro m; cases m <;> rfl
    refine (e (skipBracketedCmt p arrBr bs)).symm ▸ ?_
    exact .bind this fun x hx => .pure hx

theorem parseTup_same (hc : cfg.checked = true) (hU : ∀ ty bs, Cl p bs → Sm (NR p) (pUC ty bs) (pU ty bs)) (exact : Bool)
    (ts : List Ty) {bs : Bytes} (h : Cl p bs) : Sm (NR p) (parseTupC p cfg exact ts pUC bs) (parseTup cfg exact ts pU bs) := by
  unfold parseTupC parseTup
  refine .trimmed hc h fun h1 => .weakly hc fun _ => .moved hc (not_mem_tail h1) fun h2 => .trimmed hc h2 fun h3 => ?_
  exact .bind (tupMembers_same hc hU ts h3) fun x hx => endTup_same hc exact _ hx

theorem ordMembers_same (hc : cfg.checked = true) (hU : ∀ ty bs, Cl p bs → Sm (NR p) (pUC ty bs) (pU ty bs))
    (ms : List (Option Nat × Ty)) : ∀ (idx : Nat) {bs : Bytes}, Cl p bs →
      Sm (NR p) (ordMembersC p cfg pUC idx ms bs) (ordMembers cfg pU idx ms bs) := by
  induction ms with
  | nil => intro idx bs h; exact .pure h
  | cons m ms ih =>
    intro idx bs h
    obtain ⟨want, ty⟩ := m
    rw [ordMembersC, ordMembers]
    refine .moved hc h fun h1 => .bind (P := NR p) ?_ fun x hx => ?_
    · cases want with
      | some w => exact maybeSkip_same hc _ _ _ h1
      | none => exact .weakly hc fun _ => .pure h1
    · refine .seq fun c _ => .bind (P := NR p) ?_ fun y hy => .bind (ih _ hy) fun z hz => .pure hz
      exact .ite (fun _ => .ite (fun _ => .pure hx) fun _ => trivial) fun _ => hU _ _ hx

theorem parseOrd_same (hc : cfg.checked = true) (hU : ∀ ty bs, Cl p bs → Sm (NR p) (pUC ty bs) (pU ty bs)) (exact : Bool)
    (ms : List (Option Nat × Ty)) {bs : Bytes} (h : Cl p bs) :
    Sm (NR p) (parseOrdC p cfg exact ms pUC bs) (parseOrd cfg exact ms pU bs) := by
  unfold parseOrdC parseOrd
  refine .trimmed hc h fun h1 => .weakly hc fun _ => .trimmed hc (not_mem_tail h1) fun h2 => ?_
  exact .bind (ordMembers_same hc hU ms 0 h2) fun x hx => endTup_same hc exact _ hx

end

/-! ## Arrays and maps -/

theorem arrLoop_same (hc : cfg.checked = true) {f g : Bytes → Res (Val × Bytes)} (hf : ∀ bs, Cl p bs → Sm (NR p) (f bs) (g bs))
    (n : Nat) : ∀ (bs : Bytes), bs.length ≤ n → Cl p bs → Sm (NR p) (arrLoopC p f bs) (arrLoop cfg g bs) := by
  induction n with
  | zero =>
    intro bs hn h
    obtain rfl : bs = [] := by cases bs <;> simp_all
    rw [arrLoopC.eq_def, arrLoop.eq_def, hc]
    trivial
  | succ n ih =>
    intro bs hn h
    rw [arrLoopC.eq_def, arrLoop.eq_def]
    refine .weakly hc fun _ => .bind (hf bs h) fun x hx => .trimmed hc hx fun h1 => .weakly hc fun _ => .moved hc h1 fun h2 => ?_
    refine .weakly hc fun hne => ?_
    generalize moveNextChecked (trimChecked x.2) = b at h2 hne
    cases b with
    | nil => simp at hne
    | cons c cs =>
      simp only [headIs, deref_cons, Res.ok_bind, beq_iff_eq, List.tail_cons]
      have h3 : Cl p cs := fun c hm => h2 c (List.mem_cons_of_mem _ hm)
      refine .ite (fun _ => ?_) fun _ => .dite (fun hlt => .bind (ih _ ?_ h2) fun y hy => .pure hy) fun _ => trivial
      · rw [trimCmt_clean h3]; exact .pure (not_mem_trim h3)
      · omega

theorem trimUncheckedEnd_eq (b : Bytes) : trimUncheckedEnd cfg b = trimUnchecked b ∨
    (cfg.endQuote = true ∧ trimUnchecked b = .ub ∧ trimUncheckedEnd cfg b = .ok []) := by
  induction b with
  | nil => cases h : cfg.endQuote <;> simp [trimUncheckedEnd, trimUnchecked, h]
  | cons c cs ih =>
    rw [trimUncheckedEnd, trimUnchecked]
    split
    · exact ih
    · exact Or.inl rfl

theorem parseArr_same (hc : cfg.checked = true) {f g : Bytes → Res (Val × Bytes)} (hf : ∀ bs, Cl p bs → Sm (NR p) (f bs) (g bs))
    {bs : Bytes} (h : Cl p bs) : Sm (NR p) (parseArrC p cfg f bs) (parseArr cfg g bs) := by
  unfold parseArrC parseArr
  refine .trimmed hc h fun h1 => .weakly hc fun _ => ?_
  have h2 := not_mem_tail h1
  by_cases hn : p = .mini ∧ (trimChecked bs).tail = []
  · obtain ⟨rfl, hn⟩ := hn
    rw [hn, show trimCmtUnchecked .mini [] = .ok [] from rfl, Res.ok_bind]
    cases he : cfg.endQuote
    · simp only [derefEnd, trimUncheckedEnd, he, Bool.false_eq_true, if_false, Res.ub_bind]
      trivial
    · simp only [derefEnd, trimUncheckedEnd, he, if_true, Res.ok_bind]
      rw [if_neg (by decide), if_neg (by decide), arrLoop.eq_def, arrLoopC.eq_def, hc]
      trivial
  rw [trimCmtUnchecked_clean h2 fun e1 e2 => hn ⟨e1, e2⟩]
  rcases trimUncheckedEnd_eq (cfg := cfg) (trimChecked bs).tail with e | ⟨he, e1, e2⟩
  · rw [e]
    refine .seq fun b hb => ?_
    have h3 := not_mem_suffix h2 (trimUnchecked_suffix hb)
    refine .seq fun c _ => .ite (fun _ => ?_) fun _ => .bind (arrLoop_same hc hf _ _ (Nat.le_refl _) h3) fun x hx => .pure hx
    rw [trimCmt_clean (not_mem_tail h3)]
    exact .pure (not_mem_trim (not_mem_tail h3))
  · rw [e1, e2, Res.ok_bind, Res.ub_bind]
    simp only [derefEnd, he, if_true, Res.ok_bind]
    rw [if_neg (by decide), arrLoop.eq_def, hc]
    trivial

theorem mapLoop_same (hc : cfg.checked = true) {f g : Bytes → Res (Val × Bytes)} (hf : ∀ bs, Cl p bs → Sm (NR p) (f bs) (g bs))
    (n : Nat) : ∀ (bs : Bytes), bs.length ≤ n → Cl p bs → Sm (NR p) (mapLoopC p cfg f bs) (mapLoop cfg g bs) := by
  induction n with
  | zero =>
    intro bs hn h
    obtain rfl : bs = [] := by cases bs <;> simp_all
    rw [mapLoopC.eq_def, mapLoop.eq_def, hc]
    trivial
  | succ n ih =>
    intro bs hn h
    rw [mapLoopC.eq_def, mapLoop.eq_def]
    refine .weakly hc fun _ => .bind (.rest h (parseStr_safe hc true bs).1.2) fun k hk => .bind (trimEndOfName_same hc hk) fun b hb => ?_
    refine .bind (hf b hb) fun x hx => .moved hc hx fun h2 => .weakly hc fun hne => ?_
    generalize moveNextChecked x.2 = b at h2 hne
    cases b with
    | nil => simp at hne
    | cons c cs =>
      simp only [headIs, deref_cons, Res.ok_bind, beq_iff_eq, List.tail_cons]
      have h3 : Cl p cs := fun c hm => h2 c (List.mem_cons_of_mem _ hm)
      refine .ite (fun _ => ?_) fun _ => .dite (fun hlt => .bind (ih _ ?_ h2) fun y hy => .pure hy) fun _ => trivial
      · rw [trimCmt_clean h3]; exact .pure (not_mem_trim h3)
      · omega

theorem parseMap_same (hc : cfg.checked = true) {f g : Bytes → Res (Val × Bytes)} (hf : ∀ bs, Cl p bs → Sm (NR p) (f bs) (g bs))
    {bs : Bytes} (h : Cl p bs) : Sm (NR p) (parseMapC p cfg f bs) (parseMap cfg g bs) := by
  unfold parseMapC parseMap
  refine .weakly hc fun _ => .trimmed hc (not_mem_tail h) fun h2 => .ensure fun hne => ?_
  generalize trimChecked bs.tail = b at h2 hne
  cases b with
  | nil => simp at hne
  | cons c cs =>
    simp only [headIs, deref_cons, Res.ok_bind, beq_iff_eq, List.tail_cons]
    have h3 : Cl p cs := fun c hm => h2 c (List.mem_cons_of_mem _ hm)
    refine .ite (fun _ => ?_) fun _ => .bind (mapLoop_same hc hf _ _ (Nat.le_refl _) h2) fun y hy => .pure hy
    rw [trimCmt_clean h3]; exact .pure (not_mem_trim h3)

/-! ## All types -/

theorem parse_same (p : Cmt) (Δ : Env) (n : Nat) : ∀ (t : TCfg), t.cfg.checked = true →
    (∀ ty bs, Cl p bs → Sm (NR p) (parseUC p t Δ n ty bs) (parseU t Δ n ty bs)) ∧
    (∀ ty r a, Cl p r.text → Sm (fun _ => True) (parseKC p t Δ n ty r a) (parseK t Δ n ty r a)) := by
  induction n with
  | zero => intro t hc; exact ⟨fun _ _ _ => trivial, fun _ _ _ _ => trivial⟩
  | succ n ih =>
    intro t hc
    obtain ⟨iu, ik⟩ := ih t hc
    constructor
    · intro ty bs h
      rw [parseUC.eq_def, parseU.eq_def]
      cases ty with
      | bool => exact .bind (parseBool_same hc h) fun x hx => .pure hx
      | int i rc => exact .bind (parseInt_same hc i rc h) fun x hx => .pure hx
      | str ah => exact .bind (.rest h (parseStr_safe hc ah bs).1.2) fun x hx => .pure hx
      | txt k => exact parseTxt_same hc k h
      | opt ty =>
        refine .bind (eatNull_same hc h) fun o ho => ?_
        cases o with
        | some r => exact .pure (ho r rfl)
        | none => exact .bind (iu ty bs h) fun x hx => .pure hx
      | arr ty => exact parseArr_same hc (iu ty) h
      | map ty => exact parseMap_same hc (iu ty) h
      | ref i =>
        dsimp only
        cases Δ i with
        | obj ms exact =>
          refine .weakly hc fun _ => .bind (parseObj_same hc iu ik _ ms h) fun x hx => ?_
          rw [trimCmt_clean hx]
          exact .pure (not_mem_trim hx)
        | tup ts exact => exact parseTup_same hc iu _ ts h
        | ord ms exact =>
          refine .weakly hc fun _ => .bind (parseOrd_same hc iu _ ms h) fun x hx => ?_
          rw [trimCmt_clean hx]
          exact .pure (not_mem_trim hx)
        | var alts => exact .seq fun c _ => .seq fun a _ => .bind (iu a.2 bs h) fun x hx => .pure hx
        | ivar tag sw alts =>
          exact .weakly hc fun _ => .bind (parseObj_same hc iu ik _ [tag] h) fun x _ => .seq fun a _ => .bind (iu a.2 bs h) fun y hy => .pure hy
    · intro ty r a h
      obtain ⟨ju, jk⟩ := ih (t.inside r) (by simpa using hc)
      have hi : (t.inside r).cfg.checked = true := by simpa using hc
      have hr : r.seen t.cfg a = r.text := by rw [Range.seen, if_pos hc]
      rw [parseKC.eq_def, parseK.eq_def]
      cases ty with
      | bool => exact .same fun _ _ => trivial
      | int i rc => exact .same fun _ _ => trivial
      | str ah => exact .same fun _ _ => trivial
      | txt k => exact .same fun _ _ => trivial
      | opt ty => exact .ite (fun _ => .pure trivial) fun _ => .bind (ik ty r a h) fun x hx => .pure trivial
      | arr ty => dsimp only; rw [hr]; exact .bind (parseArr_same hi (ju ty) h) fun x hx => .pure trivial
      | map ty => dsimp only; rw [hr]; exact .bind (parseMap_same hi (ju ty) h) fun x hx => .pure trivial
      | ref i =>
        dsimp only
        rw [hr]
        cases Δ i with
        | obj ms exact => exact .weakly hc fun _ => .bind (parseObj_same hi ju jk _ ms h) fun x hx => .pure trivial
        | tup ts exact => exact .bind (parseTup_same hi ju _ ts h) fun x hx => .pure trivial
        | ord ms exact => exact .weakly hc fun _ => .bind (parseOrd_same hi ju _ ms h) fun x hx => .pure trivial
        | var alts => exact .seq fun b _ => .bind (ik b.2 r a h) fun x hx => .pure trivial
        | ivar tag sw alts =>
          exact .weakly hc fun _ => .bind (parseObj_same hi ju jk _ [tag] h) fun x _ => .seq fun b _ => .bind (ju b.2 _ h) fun y hy => .pure trivial

theorem fromJson_same (p : Cmt) {t : TCfg} (hc : t.cfg.checked = true) (Δ : Env) (n : Nat) (ty : Ty) {bs : Bytes} (h : Cl p bs) :
    Sm (fun _ => True) (fromJsonC p t Δ n ty bs) (fromJson t Δ n ty bs) := by
  unfold fromJsonC fromJson
  refine .ensure fun _ => ?_
  have h1 : Cl p (if bs.getLast? = some 0 then bs.dropLast else bs) := by
    split
    · exact fun c hm => h c ((List.dropLast_prefix bs).subset hm)
    · exact h
  refine .bind ((parse_same p Δ n t hc).1 ty _ h1) fun x hx => ?_
  dsimp only
  refine .ite (fun _ => ?_) fun _ => .pure trivial
  exact .trimmed hc hx fun _ => .ensure fun _ => .pure trivial

end Verif
