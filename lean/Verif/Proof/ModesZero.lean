import Verif.Proof.Modes
import Verif.Proof.CommentSameMain

/-!
# Modes: texts without zero bytes, checked
-/

namespace Verif

/-- The same, and a value has the property; or undefined where the other is one of two exceptions. -/
def Sq {α : Type} (P : α → Prop) (a b : Res α) : Prop :=
  (a = b ∧ ∀ x, b = .ok x → P x) ∨ (a = .ub ∧ (b = .err .invalidString ∨ b = .err .unexpectedEndOfData))

theorem Sq.bind {α β : Type} {P : α → Prop} {Q : β → Prop} {a b : Res α} {f g : α → Res β} (h : Sq P a b)
    (hf : ∀ x, P x → Sq Q (f x) (g x)) : Sq Q (a >>= f) (b >>= g) := by
  rcases h with ⟨rfl, h⟩ | ⟨rfl, rfl | rfl⟩
  · cases a with
    | ok x => exact hf x (h x rfl)
    | err e => exact Or.inl ⟨rfl, by simp⟩
    | ub => exact Or.inl ⟨rfl, by simp⟩
  · exact Or.inr ⟨rfl, Or.inl rfl⟩
  · exact Or.inr ⟨rfl, Or.inr rfl⟩

theorem Sq.same {α : Type} {P : α → Prop} {a : Res α} (h : ∀ x, a = .ok x → P x) : Sq P a a := Or.inl ⟨rfl, h⟩

theorem Sq.pure {α : Type} {P : α → Prop} {x : α} (h : P x) : Sq P (.ok x) (.ok x) := Or.inl ⟨rfl, by rintro _ ⟨⟩; exact h⟩

theorem Sq.seq {α β : Type} {Q : β → Prop} {a : Res α} {f g : α → Res β} (hf : ∀ x, a = .ok x → Sq Q (f x) (g x)) :
    Sq Q (a >>= f) (a >>= g) := by
  cases a with
  | ok x => exact hf x rfl
  | err => exact Or.inl ⟨rfl, by simp⟩
  | ub => exact Or.inl ⟨rfl, by simp⟩

theorem Sq.err {α : Type} {P : α → Prop} (e : Err) : Sq P (.err e) (.err e) := Or.inl ⟨rfl, by simp⟩

theorem Sq.ub {α : Type} {P : α → Prop} : Sq P (.ub : Res α) .ub := Or.inl ⟨rfl, by simp⟩

theorem Sq.ite {α : Type} {P : α → Prop} {c : Prop} [Decidable c] {a a' b b' : Res α} (h : c → Sq P a a') (h' : ¬ c → Sq P b b') :
    Sq P (if c then a else b) (if c then a' else b') := by
  split
  · exact h ‹_›
  · exact h' ‹_›

theorem Sq.dite {α : Type} {P : α → Prop} {c : Prop} [Decidable c] {a a' : c → Res α} {b b' : ¬ c → Res α} (h : ∀ x, Sq P (a x) (a' x))
    (h' : ∀ x, Sq P (b x) (b' x)) : Sq P (if h : c then a h else b h) (if h : c then a' h else b' h) := by
  split
  · exact h _
  · exact h' _

/-- No byte is zero. -/
def Nz (s : Bytes) : Prop := 0 ∉ s

/-- None is in the rest. -/
def NzR {α : Type} (x : α × Bytes) : Prop := Nz x.2

theorem Nz.suffix {s r : Bytes} (h : Nz s) (hr : r <:+ s) : Nz r := fun hm => h (hr.subset hm)
theorem Nz.trim {s : Bytes} (h : Nz s) : Nz (trimChecked s) := h.suffix (trimChecked_suffix s)
theorem Nz.moveNext {s : Bytes} (h : Nz s) : Nz (moveNextChecked s) := h.suffix (moveNextChecked_suffix s)
theorem Nz.tail {s : Bytes} (h : Nz s) : Nz s.tail := h.suffix (List.tail_suffix s)
theorem Nz.drop {s : Bytes} (n : Nat) (h : Nz s) : Nz (s.drop n) := h.suffix (List.drop_suffix n s)

theorem Sq.rest {α : Type} {s : Bytes} {a : Res (α × Bytes)} (h : Nz s) (ha : ∀ v r, a = .ok (v, r) → r <:+ s) : Sq NzR a a :=
  .same fun x hx => h.suffix (ha x.1 x.2 hx)

variable {t : TCfg} {cfg : Cfg}

theorem Sq.trimmed {α : Type} {P : α → Prop} (hc : cfg.checked = true) {b : Bytes} (hb : Nz b) {f g : Bytes → Res α}
    (h : Nz (trimChecked b) → Sq P (f (trimChecked b)) (g (trimChecked b))) : Sq P (Verif.trim cfg b >>= f) (Verif.trim cfg b >>= g) := by
  rw [trim_ok hc]
  exact h hb.trim

theorem Sq.moved {α : Type} {P : α → Prop} (hc : cfg.checked = true) {b : Bytes} (hb : Nz b) {f g : Bytes → Res α}
    (h : Nz (moveNextChecked b) → Sq P (f (moveNextChecked b)) (g (moveNextChecked b))) :
    Sq P (Verif.moveNext cfg b >>= f) (Verif.moveNext cfg b >>= g) := by
  rw [moveNext_ok hc]
  exact h hb.moveNext

/-! ## The two functions that differ -/

theorem trimEndOfName_rest (hc : cfg.checked = true) {b r : Bytes} (hb : Nz b) (he : trimEndOfName cfg b = .ok r) : Nz r := by
  unfold trimEndOfName whenChecked at he
  simp only [trim_ok hc, Res.ok_bind, if_pos hc, Res.bind_eq_ok] at he
  obtain ⟨_, _, he⟩ := he
  simp at he
  subst he
  exact hb.trim.tail.trim

theorem parseName_rest (hc : t.cfg.checked = true) {bs : Bytes} (h : Nz bs) : ∀ x, parseName t bs = .ok x → NzR x := by
  have htr : ∀ {b r : Bytes}, Nz b → trimEndOfName t.cfg b = .ok r → Nz r := fun hb he => trimEndOfName_rest hc hb he
  intro x he
  unfold parseName at he
  simp only [Res.bind_eq_ok] at he
  obtain ⟨_, _, _, _, he⟩ := he
  split at he
  · simp only [Res.bind_eq_ok] at he
    obtain ⟨⟨r, b⟩, h1, b', h2, he⟩ := he
    simp at he
    subst he
    refine htr (h.suffix ?_) h2
    simp only [skipStringNq, Res.bind_eq_ok] at h1
    obtain ⟨_, _, h1⟩ := h1
    simp at h1
    rw [← h1.2]
    exact List.drop_suffix _ _
  · simp only [Res.bind_eq_ok] at he
    obtain ⟨_, _, _, _, b', h2, he⟩ := he
    simp at he
    subst he
    exact htr ((h.tail.suffix (toQuote_suffix _)).tail) h2

theorem parseNameX_nz (hc : t.cfg.checked = true) {bs : Bytes} (h : Nz bs) : Sq NzR (parseNameX t bs) (parseName t.short bs) := by
  rcases parseNameX_long (t := t) bs with e | ⟨e1, e2⟩
  · rw [e]; exact .same (parseName_rest hc h)
  · exact Or.inr ⟨e1, Or.inl e2⟩

theorem moveToNextClassMember_suffix {bs r : Bytes} (h : moveToNextClassMember cfg bs = .ok r) : r <:+ bs := by
  induction bs with
  | nil => rw [moveToNextClassMember] at h; split at h <;> simp at h
  | cons c cs ih =>
    rw [moveToNextClassMember] at h
    split at h
    · simp at h; subst h; exact List.suffix_rfl
    · exact (ih h).trans (List.suffix_cons c cs)

theorem mempbrk_nz (long debug : Bool) {bs : Bytes} (h : Nz bs) :
    mempbrk long debug [chQuote, chRBrace] bs = moveToNextClassMember cfg bs ∨
    (mempbrk long debug [chQuote, chRBrace] bs = .ub ∧ moveToNextClassMember cfg bs = .err .unexpectedEndOfData) := by
  induction bs with
  | nil => cases h : cfg.checked <;> simp [mempbrk, moveToNextClassMember, h]
  | cons c cs ih =>
    have h0 : c ≠ 0 := fun e => h (by simp [e])
    rw [mempbrk, moveToNextClassMember]
    by_cases hc : c = chQuote ∨ c = chRBrace
    · rw [if_pos hc, if_pos (by simpa using hc)]; exact Or.inl rfl
    · rw [if_neg hc, if_neg (by simpa using hc), if_neg (by simp [h0])]
      exact ih h.tail

theorem moveToMemberX_nz (x : Mode) (t : TCfg) {bs : Bytes} (h : Nz bs) :
    Sq Nz (moveToMemberX x t bs) (moveToNextClassMember t.cfg bs) := by
  have hs := fun r (hr : moveToNextClassMember t.cfg bs = .ok r) => h.suffix (moveToNextClassMember_suffix hr)
  unfold moveToMemberX
  by_cases hx : x.exec = .constexpr
  · rw [if_pos hx]; exact .same hs
  rw [if_neg hx]
  rcases mempbrk_nz (cfg := t.cfg) t.longNames x.debug h with e | ⟨e1, e2⟩
  · rw [e]; exact .same hs
  · exact Or.inr ⟨e1, Or.inr e2⟩

/-! ## Classes -/

def LocsNz (locs : Locs) : Prop := ∀ (n : Nat) r a, (locs[n]?).join = some (r, a) → Nz r.text

theorem LocsNz.set {locs : Locs} (h : LocsNz locs) (n : Nat) {r : Range} (a : Bytes) (hr : r.null = false → Nz r.text) :
    LocsNz (setLoc locs n r a) := by
  intro m r' a' hm
  unfold setLoc at hm
  rw [List.getElem?_set] at hm
  split at hm
  · split at hm
    · split at hm
      · simp at hm
      · rename_i hn
        simp at hm
        obtain ⟨rfl, rfl⟩ := hm
        exact hr (by simpa using hn)
    · simp at hm
  · exact h m r' a' hm

def FoundNz (x : Found × Locs × Bytes) : Prop :=
  LocsNz x.2.1 ∧ Nz x.2.2 ∧ ∀ r a, x.1 = .known r a → Nz r.text

theorem skipValue_text_nz (hc : cfg.checked = true) {b rest : Bytes} {r : Range} (h : Nz b)
    (he : skipValue cfg false b = .ok (r, rest)) : r.null = false → Nz r.text := by
  intro hn hm
  rcases skipValue_skipped hc he with ⟨-, e, -⟩ | ⟨-, e | ⟨-, -, w, e, -⟩⟩
  · exact h (by rw [e]; simp [hm])
  · simp [hn] at e
  · exact h (by rw [e]; simp [hm])

theorem findLoop_nz (hc : t.cfg.checked = true) (exact : Bool) (names : List Bytes) (pos : Nat) (n : Nat) :
    ∀ (locs : Locs) (bs : Bytes), bs.length ≤ n → LocsNz locs → Nz bs →
      Sq FoundNz (findLoopX t exact names pos locs bs) (findLoop t.short exact names pos locs bs) := by
  induction n with
  | zero =>
    intro locs bs hn hl h
    obtain rfl : bs = [] := by cases bs <;> simp_all
    rw [findLoopX.eq_def, findLoop.eq_def]
    exact .pure ⟨hl, h, by rintro _ _ ⟨⟩⟩
  | succ n ih =>
    intro locs bs hn hl h
    rw [findLoopX.eq_def, findLoop.eq_def]
    cases bs with
    | nil => exact .pure ⟨hl, h, by rintro _ _ ⟨⟩⟩
    | cons c cs =>
      simp only [findName_short t, show t.short.cfg = t.cfg from rfl]
      refine .ite (fun _ => .pure ⟨hl, h, by rintro _ _ ⟨⟩⟩) fun _ => ?_
      refine .bind (parseNameX_nz hc h) fun x hx => ?_
      refine .ite (fun _ => by rw [if_pos hc]; exact .err _) fun _ => ?_
      refine .ite (fun _ => ?_) fun _ => ?_
      · refine .bind (.rest hx (skipValue_safe hc false x.2).2) fun y hy => .moved hc hy fun hb => ?_
        refine .dite (fun hlt => ih _ _ ?_ hl hb) fun _ => .ub
        simp only [List.length_cons] at hlt hn
        omega
      refine .ite (fun _ => .pure ⟨hl, hx, by rintro _ _ ⟨⟩⟩) fun _ => ?_
      refine .seq fun y hy => ?_
      have hy2 : Nz y.2 := Nz.suffix hx ((skipValue_safe hc false x.2).2 _ _ hy)
      have hne : ¬ (t.cfg.checked = false ∧ findName t.short names pos x.1 + 1 < names.length) := by simp [hc]
      rw [if_neg hne, if_neg hne]
      refine .moved hc hy2 fun hb => ?_
      refine .dite (fun hlt => ih _ _ ?_ (hl.set _ _ fun hn => skipValue_text_nz (r := y.1) (rest := y.2) hc hx hy hn) hb) fun _ => .ub
      simp only [List.length_cons] at hlt hn
      omega

theorem findMember_nz (hc : t.cfg.checked = true) (exact : Bool) (names : List Bytes) (pos : Nat) (nullable : Bool) {locs : Locs} {bs : Bytes}
    (hl : LocsNz locs) (h : Nz bs) :
    Sq FoundNz (findMemberX t exact names pos nullable locs bs) (findMember t.short exact names pos nullable locs bs) := by
  unfold findMemberX findMember
  refine .seq fun _ _ => .seq fun b hb => ?_
  have h1 := h.suffix (trimUnchecked_suffix hb)
  cases e : (locs[pos]?).join with
  | some x => exact .pure ⟨hl, h1, by rintro _ _ ⟨⟩; exact hl _ _ _ e⟩
  | none => exact findLoop_nz hc _ _ _ _ _ _ (Nat.le_refl _) hl h1

section
variable {pU pUX : Ty → Bytes → Res (Val × Bytes)} {pK pKX : Ty → Range → Bytes → Res Val}

theorem classMembers_nz (hc : t.cfg.checked = true) (hU : ∀ ty bs, Nz bs → Sq NzR (pUX ty bs) (pU ty bs))
    (hK : ∀ ty r a, Nz r.text → Sq (fun _ => True) (pKX ty r a) (pK ty r a)) (exact : Bool) (names : List Bytes) (ms : List Member) :
    ∀ (pos : Nat) (locs : Locs) (bs : Bytes), LocsNz locs → Nz bs →
      Sq NzR (classMembersX t exact names pUX pKX pos ms locs bs) (classMembers t.short exact names pU pK pos ms locs bs) := by
  induction ms with
  | nil => intro pos locs bs _ h; exact .pure h
  | cons m ms ih =>
    intro pos locs bs hl h
    rw [classMembersX, classMembers]
    refine .moved hc h fun h1 => .seq fun _ _ => .bind (findMember_nz hc _ _ _ _ hl h1) ?_
    rintro ⟨f, locs', b⟩ ⟨hl', hb, hf⟩
    dsimp only
    refine .bind (P := NzR) ?_ fun x hx => .bind (ih _ _ _ hl' hx) fun y hy => .pure hy
    cases f with
    | here => exact hU _ _ hb
    | known r a => exact .bind (hK _ _ _ (hf _ _ rfl)) fun v _ => .pure hb
    | absent => exact .ite (fun _ => .pure hb) fun _ => .err _

theorem classCleanup_nz (x : Mode) (hc : t.cfg.checked = true) (exact : Bool) {bs : Bytes} (h : Nz bs) :
    Sq Nz (classCleanupX x t exact bs) (classCleanup t.cfg exact bs) := by
  unfold classCleanupX classCleanup
  refine .seq fun _ _ => .moved hc h fun h1 => .bind (moveToMemberX_nz x t h1) fun b hb => ?_
  refine .ite (fun _ => .seq fun _ _ => .pure hb.tail.trim) fun _ => ?_
  exact .bind (.rest hb (skipBracketed_safe hc _ b).2) fun y hy => .pure (Nz.trim hy)

theorem parseObj_nz (x : Mode) (hc : t.cfg.checked = true) (hU : ∀ ty bs, Nz bs → Sq NzR (pUX ty bs) (pU ty bs))
    (hK : ∀ ty r a, Nz r.text → Sq (fun _ => True) (pKX ty r a) (pK ty r a)) (exact : Bool) (ms : List Member) {bs : Bytes}
    (h : Nz bs) : Sq NzR (parseObjX x t exact ms pUX pKX bs) (parseObj t.short exact ms pU pK bs) := by
  unfold parseObjX parseObj
  refine .trimmed hc h fun h1 => .seq fun _ _ => .trimmed hc h1.tail fun h2 => ?_
  refine .bind (classMembers_nz hc hU hK _ _ _ _ _ _ ?_ h2) fun y hy => .bind (classCleanup_nz x hc _ hy) fun z hz => .pure hz
  intro n r a hn
  rw [List.getElem?_map] at hn
  cases e : ms[n]? <;> simp [e] at hn

/-! ## Tuples and ordered classes -/

theorem skipMembers_rest (hc : cfg.checked = true) (nl : Bool) (n : Nat) : ∀ {bs : Bytes}, Nz bs →
    Sq NzR (skipMembers cfg nl n bs) (skipMembers cfg nl n bs) := by
  induction n with
  | zero =>
    intro bs h
    rw [skipMembers]
    exact .seq fun e _ => .pure h
  | succ n ih =>
    intro bs h
    rw [skipMembers]
    refine .seq fun e _ => .ite (fun _ => .pure h) fun _ => ?_
    exact .bind (.rest h (skipValue_safe hc false bs).2) fun x hx => .moved hc hx fun hb => .seq fun _ _ => ih hb

theorem tupMembers_nz (hc : cfg.checked = true) (hU : ∀ ty bs, Nz bs → Sq NzR (pUX ty bs) (pU ty bs)) (ts : List Ty) :
    ∀ {bs : Bytes}, Nz bs → Sq NzR (tupMembers cfg pUX ts bs) (tupMembers cfg pU ts bs) := by
  induction ts with
  | nil => intro bs h; exact .pure h
  | cons ty ts ih =>
    intro bs h
    rw [tupMembers, tupMembers]
    exact .seq fun _ _ => .bind (hU ty bs h) fun x hx => .moved hc hx fun hb => .bind (ih hb) fun y hy => .pure hy

theorem endTup_rest (hc : cfg.checked = true) (exact : Bool) (v : Val) {bs : Bytes} (h : Nz bs) :
    let a : Res (Val × Bytes) := if exact then do
        let b ← trim cfg bs
        let c ← derefEnd cfg b
        assertWeak cfg.checked (c == chRBrack) .unknownMember
        let b ← trim cfg b.tail
        .ok (v, b)
      else do
        let (_, b) ← skipBracketed cfg arrBr bs
        .ok (v, b)
    Sq NzR a a := by
  intro a
  refine .ite (fun _ => ?_) fun _ => .bind (.rest h (skipBracketed_safe hc _ bs).2) fun x hx => .pure hx
  exact .trimmed hc h fun h1 => .seq fun _ _ => .seq fun _ _ => .trimmed hc h1.tail fun h2 => .pure h2

theorem parseTup_nz (hc : cfg.checked = true) (hU : ∀ ty bs, Nz bs → Sq NzR (pUX ty bs) (pU ty bs)) (exact : Bool)
    (ts : List Ty) {bs : Bytes} (h : Nz bs) : Sq NzR (parseTup cfg exact ts pUX bs) (parseTup cfg exact ts pU bs) := by
  unfold parseTup
  refine .trimmed hc h fun h1 => .seq fun _ _ => .moved hc h1.tail fun h2 => .trimmed hc h2 fun h3 => ?_
  exact .bind (tupMembers_nz hc hU ts h3) fun x hx => endTup_rest hc exact _ hx

theorem ordMembers_nz (hc : cfg.checked = true) (hU : ∀ ty bs, Nz bs → Sq NzR (pUX ty bs) (pU ty bs))
    (ms : List (Option Nat × Ty)) : ∀ (idx : Nat) {bs : Bytes}, Nz bs →
      Sq NzR (ordMembers cfg pUX idx ms bs) (ordMembers cfg pU idx ms bs) := by
  induction ms with
  | nil => intro idx bs h; exact .pure h
  | cons m ms ih =>
    intro idx bs h
    obtain ⟨want, ty⟩ := m
    rw [ordMembers, ordMembers]
    refine .moved hc h fun h1 => .bind (P := NzR) ?_ fun x hx => ?_
    · cases want with
      | some w => exact .seq fun _ _ => .bind (skipMembers_rest hc _ _ h1) fun _ hx => .pure hx
      | none => exact .seq fun _ _ => .pure h1
    · refine .seq fun c _ => .bind (P := NzR) ?_ fun y hy => .bind (ih _ hy) fun z hz => .pure hz
      exact .ite (fun _ => .ite (fun _ => .pure hx) fun _ => .err _) fun _ => hU _ _ hx

theorem parseOrd_nz (hc : cfg.checked = true) (hU : ∀ ty bs, Nz bs → Sq NzR (pUX ty bs) (pU ty bs)) (exact : Bool)
    (ms : List (Option Nat × Ty)) {bs : Bytes} (h : Nz bs) :
    Sq NzR (parseOrd cfg exact ms pUX bs) (parseOrd cfg exact ms pU bs) := by
  unfold parseOrd
  refine .trimmed hc h fun h1 => .seq fun _ _ => .trimmed hc h1.tail fun h2 => ?_
  exact .bind (ordMembers_nz hc hU ms 0 h2) fun x hx => endTup_rest hc exact _ hx

end

/-! ## Arrays and maps -/

theorem arrLoop_nz (hc : cfg.checked = true) {f g : Bytes → Res (Val × Bytes)} (hf : ∀ bs, Nz bs → Sq NzR (f bs) (g bs))
    (n : Nat) : ∀ (bs : Bytes), bs.length ≤ n → Nz bs → Sq NzR (arrLoop cfg f bs) (arrLoop cfg g bs) := by
  induction n with
  | zero =>
    intro bs hn h
    obtain rfl : bs = [] := by cases bs <;> simp_all
    rw [arrLoop.eq_def, arrLoop.eq_def, hc]
    exact .err _
  | succ n ih =>
    intro bs hn h
    rw [arrLoop.eq_def, arrLoop.eq_def]
    refine .seq fun _ _ => .bind (hf bs h) fun x hx => .trimmed hc hx fun h1 => .seq fun _ _ => .moved hc h1 fun h2 => ?_
    refine .seq fun _ _ => .seq fun _ _ => .ite (fun _ => .pure (Nz.trim h2.tail)) fun _ => ?_
    refine .dite (fun hlt => .bind (ih _ ?_ h2) fun y hy => .pure hy) fun _ => .ub
    omega

theorem trimUncheckedEnd_suffix {b r : Bytes} (h : trimUncheckedEnd cfg b = .ok r) : r <:+ b := by
  rcases trimUncheckedEnd_eq (cfg := cfg) b with e | ⟨-, -, e⟩
  · rw [e] at h; exact trimUnchecked_suffix h
  · rw [e] at h; simp at h; subst h; exact List.nil_suffix

theorem parseArr_nz (hc : cfg.checked = true) {f g : Bytes → Res (Val × Bytes)} (hf : ∀ bs, Nz bs → Sq NzR (f bs) (g bs))
    {bs : Bytes} (h : Nz bs) : Sq NzR (parseArr cfg f bs) (parseArr cfg g bs) := by
  unfold parseArr
  refine .trimmed hc h fun h1 => .seq fun _ _ => .seq fun b hb => ?_
  have h3 := h1.tail.suffix (trimUncheckedEnd_suffix hb)
  refine .seq fun c _ => .ite (fun _ => .pure (Nz.trim h3.tail)) fun _ => ?_
  exact .bind (arrLoop_nz hc hf _ _ (Nat.le_refl _) h3) fun x hx => .pure hx

theorem mapLoop_nz (hc : cfg.checked = true) {f g : Bytes → Res (Val × Bytes)} (hf : ∀ bs, Nz bs → Sq NzR (f bs) (g bs))
    (n : Nat) : ∀ (bs : Bytes), bs.length ≤ n → Nz bs → Sq NzR (mapLoop cfg f bs) (mapLoop cfg g bs) := by
  induction n with
  | zero =>
    intro bs hn h
    obtain rfl : bs = [] := by cases bs <;> simp_all
    rw [mapLoop.eq_def, mapLoop.eq_def, hc]
    exact .err _
  | succ n ih =>
    intro bs hn h
    rw [mapLoop.eq_def, mapLoop.eq_def]
    refine .seq fun _ _ => .bind (.rest h (parseStr_safe hc true bs).1.2) fun k hk =>
      .bind (P := Nz) (.same fun b hb => trimEndOfName_rest hc hk hb) fun b hb => ?_
    refine .bind (hf b hb) fun x hx => .moved hc hx fun h2 => .seq fun _ _ => .seq fun _ _ => ?_
    refine .ite (fun _ => .pure (Nz.trim h2.tail)) fun _ => ?_
    refine .dite (fun hlt => .bind (ih _ ?_ h2) fun y hy => .pure hy) fun _ => .ub
    omega

theorem parseMap_nz (hc : cfg.checked = true) {f g : Bytes → Res (Val × Bytes)} (hf : ∀ bs, Nz bs → Sq NzR (f bs) (g bs))
    {bs : Bytes} (h : Nz bs) : Sq NzR (parseMap cfg f bs) (parseMap cfg g bs) := by
  unfold parseMap
  refine .seq fun _ _ => .trimmed hc h.tail fun h2 => .seq fun _ _ => .seq fun _ _ => ?_
  refine .ite (fun _ => .pure (Nz.trim h2.tail)) fun _ => ?_
  exact .bind (mapLoop_nz hc hf _ _ (Nat.le_refl _) h2) fun y hy => .pure hy

/-! ## All types -/

theorem parseTxt_rest (hc : cfg.checked = true) (k : TxtKind) {bs : Bytes} (h : Nz bs) : ∀ x, parseTxt cfg k bs = .ok x → NzR x := by
  rintro ⟨v, r⟩ he
  have key : r <:+ bs := by
    cases k with
    | rawStr ah =>
      unfold parseTxt at he
      simp only [Res.bind_eq_ok] at he
      obtain ⟨⟨x, y⟩, he, h2⟩ := he
      simp at h2
      obtain ⟨-, rfl⟩ := h2
      exact (skipString_safe hc _ _).2 _ _ he
    | date =>
      unfold parseTxt parseDate at he
      simp only [Res.bind_eq_ok] at he
      obtain ⟨⟨x, y⟩, ⟨_, _, ⟨x', y'⟩, he, q, _, h3⟩, h2⟩ := he
      simp at h2 h3
      obtain ⟨-, rfl⟩ := h2
      obtain ⟨-, rfl⟩ := h3
      exact (skipString_safe hc _ _).2 _ _ he
    | real dbl f =>
      unfold parseTxt parseReal at he
      simp only [Res.bind_eq_ok] at he
      obtain ⟨⟨x, y⟩, ⟨⟨x', y'⟩, he, q, _, h3⟩, h2⟩ := he
      simp at h2 h3
      obtain ⟨-, rfl⟩ := h2
      obtain ⟨-, rfl⟩ := h3
      exact realUnknown_suffix (rc := cfg.real false dbl) hc he
    | raw =>
      unfold parseTxt at he
      simp only [Res.bind_eq_ok] at he
      obtain ⟨⟨x, y⟩, he, h2⟩ := he
      simp at h2
      obtain ⟨-, rfl⟩ := h2
      exact (skipValue_safe hc _ _).2 _ _ he
    | quoted al l =>
      unfold parseTxt at he
      simp only [Res.bind_eq_ok] at he
      obtain ⟨⟨x, y⟩, he, h2⟩ := he
      simp at h2
      obtain ⟨-, rfl⟩ := h2
      exact (parseLit_safe hc _ _ _).2 _ _ he
    | custom c =>
      unfold parseTxt parseCustom at he
      simp only [Res.bind_eq_ok] at he
      obtain ⟨⟨x, y⟩, ⟨⟨x', y'⟩, he, q, _, h3⟩, h2⟩ := he
      simp at h2 h3
      obtain ⟨-, rfl⟩ := h2
      obtain ⟨-, rfl⟩ := h3
      unfold customText at he
      cases c with
      | str =>
        simp only [Res.bind_eq_ok] at he
        obtain ⟨⟨x, y⟩, he, h2⟩ := he
        simp at h2
        obtain ⟨-, rfl⟩ := h2
        exact (skipString_safe hc _ _).2 _ _ he
      | lit =>
        simp only [Res.bind_eq_ok] at he
        obtain ⟨⟨x, y⟩, he, h2⟩ := he
        simp at h2
        obtain ⟨-, rfl⟩ := h2
        exact (skipLiteral_safe hc _).2 _ _ he
      | any =>
        simp only [Res.bind_eq_ok] at he
        obtain ⟨d, _, he⟩ := he
        split at he
        · simp only [Res.bind_eq_ok] at he
          obtain ⟨⟨x, y⟩, he, h2⟩ := he
          simp at h2
          obtain ⟨-, rfl⟩ := h2
          exact (skipString_safe hc _ _).2 _ _ he
        · simp only [Res.bind_eq_ok] at he
          obtain ⟨⟨x, y⟩, he, h2⟩ := he
          simp at h2
          obtain ⟨-, rfl⟩ := h2
          exact (skipValue_safe hc _ _).2 _ _ he
  exact h.suffix key

theorem parseBool_rest (hc : cfg.checked = true) {bs : Bytes} (h : Nz bs) : Sq NzR (parseBool cfg bs) (parseBool cfg bs) :=
  .bind (.rest h (eatBool_safe hc bs).2) fun _ hx => .trimmed hc hx fun hb => .seq fun _ _ => .pure hb

theorem eatNull_rest (hc : cfg.checked = true) {bs : Bytes} (h : Nz bs) :
    Sq (fun o => ∀ r, o = some r → Nz r) (eatNull cfg bs) (eatNull cfg bs) := by
  unfold eatNull
  rw [if_pos hc]
  refine .ite (fun _ => .pure (by rintro _ ⟨⟩; exact h)) fun _ => ?_
  refine .ite (fun _ => .seq fun _ _ => ?_) fun _ => .pure (by rintro _ ⟨⟩)
  exact .pure (by rintro _ ⟨⟩; exact (h.drop _).trim)

theorem parse_nz (x : Mode) (Δ : Env) (n : Nat) : ∀ (t : TCfg), t.cfg.checked = true →
    (∀ ty bs, Nz bs → Sq NzR (parseUX x t Δ n ty bs) (parseU t.short Δ n ty bs)) ∧
    (∀ ty r a, Nz r.text → Sq (fun _ => True) (parseKX x t Δ n ty r a) (parseK t.short Δ n ty r a)) := by
  induction n with
  | zero =>
    intro t hc
    refine ⟨fun ty bs _ => ?_, fun ty r a _ => ?_⟩
    · rw [parseUX.eq_def, parseU.eq_def]; exact .ub
    · rw [parseKX.eq_def, parseK.eq_def]; exact .ub
  | succ n ih =>
    intro t hc
    obtain ⟨iu, ik⟩ := ih t hc
    constructor
    · intro ty bs h
      rw [parseUX.eq_def x t Δ (n + 1), parseU.eq_def t.short Δ (n + 1)]
      dsimp only
      cases ty with
      | bool => exact .bind (parseBool_rest hc h) fun y hy => .pure hy
      | int i rc => exact .bind (.rest h (parseInt_safe hc i rc bs).2) fun y hy => .pure hy
      | str ah => exact .bind (.rest h (parseStr_safe hc ah bs).1.2) fun y hy => .pure hy
      | txt k => exact .same (parseTxt_rest hc k h)
      | opt ty =>
        refine .bind (eatNull_rest hc h) fun o ho => ?_
        cases o with
        | some r => exact .pure (ho r rfl)
        | none => exact .bind (iu ty bs h) fun y hy => .pure hy
      | arr ty => exact parseArr_nz hc (iu ty) h
      | map ty => exact parseMap_nz hc (iu ty) h
      | ref i =>
        dsimp only
        cases Δ i with
        | obj ms exact => exact .seq fun _ _ => .bind (parseObj_nz x hc iu ik _ ms h) fun y hy => .pure (Nz.trim hy)
        | tup ts exact => exact parseTup_nz hc iu _ ts h
        | ord ms exact => exact .seq fun _ _ => .bind (parseOrd_nz hc iu _ ms h) fun y hy => .pure (Nz.trim hy)
        | var alts => exact .seq fun c _ => .seq fun a _ => .bind (iu a.2 bs h) fun y hy => .pure hy
        | ivar tag sw alts =>
          exact .seq fun _ _ => .bind (parseObj_nz x hc iu ik _ [tag] h) fun y _ => .seq fun a _ => .bind (iu a.2 bs h) fun y hy => .pure hy
    · intro ty r a h
      obtain ⟨ju, jk⟩ := ih (t.inside r) (by simpa using hc)
      have hi : (t.inside r).cfg.checked = true := by simpa using hc
      have hr : r.seen t.cfg a = r.text := by rw [Range.seen, if_pos hc]
      rw [parseKX.eq_def x t Δ (n + 1), parseK.eq_def t.short Δ (n + 1)]
      simp only [short_inside, show t.short.cfg = t.cfg from rfl, show (t.inside r).short.cfg = (t.inside r).cfg from rfl]
      cases ty with
      | bool => exact .same fun _ _ => trivial
      | int i rc => exact .same fun _ _ => trivial
      | str ah => exact .same fun _ _ => trivial
      | txt k => exact .same fun _ _ => trivial
      | opt ty => exact .ite (fun _ => .pure trivial) fun _ => .bind (ik ty r a h) fun y hy => .pure trivial
      | arr ty => dsimp only; rw [hr]; exact .bind (parseArr_nz hi (ju ty) h) fun y hy => .pure trivial
      | map ty => dsimp only; rw [hr]; exact .bind (parseMap_nz hi (ju ty) h) fun y hy => .pure trivial
      | ref i =>
        dsimp only
        rw [hr]
        cases Δ i with
        | obj ms exact => exact .seq fun _ _ => .bind (parseObj_nz x hi ju jk _ ms h) fun y hy => .pure trivial
        | tup ts exact => exact .bind (parseTup_nz hi ju _ ts h) fun y hy => .pure trivial
        | ord ms exact => exact .seq fun _ _ => .bind (parseOrd_nz hi ju _ ms h) fun y hy => .pure trivial
        | var alts => exact .seq fun b _ => .bind (ik b.2 r a h) fun y hy => .pure trivial
        | ivar tag sw alts =>
          exact .seq fun _ _ => .bind (parseObj_nz x hi ju jk _ [tag] h) fun y _ => .seq fun b _ => .bind (ju b.2 _ h) fun y hy => .pure trivial

theorem fromJson_nz (x : Mode) {t : TCfg} (hc : t.cfg.checked = true) (Δ : Env) (n : Nat) (ty : Ty) {bs : Bytes}
    (h : Nz (if bs.getLast? = some 0 then bs.dropLast else bs)) :
    Sq (fun _ => True) (fromJsonX x t Δ n ty bs) (fromJson t.short Δ n ty bs) := by
  unfold fromJsonX fromJson
  refine .seq fun _ _ => .bind ((parse_nz x Δ n t hc).1 ty _ h) fun y hy => ?_
  exact .same fun _ _ => trivial

end Verif
