import Verif.Model.Modes
import Verif.Proof.Hash

/-!
# Modes: the class parse is carried along by any relation that agrees with sequencing
-/

namespace Verif

/-- A relation between outcomes that contains equality and agrees with sequencing. -/
structure Sim where
  r : ∀ {α : Type}, Res α → Res α → Prop
  refl : ∀ {α : Type} (a : Res α), r a a
  bind : ∀ {α β : Type} {a b : Res α} {f g : α → Res β}, r a b → (∀ x, r (f x) (g x)) → r (a.bind f) (b.bind g)

/-- Equal, or undefined where the other is one of the exceptions `P`. -/
def Sim.strong (P : Err → Prop) : Sim where
  r a b := a = b ∨ (a = .ub ∧ ∃ e, P e ∧ b = .err e)
  refl _ := Or.inl rfl
  bind := by
    intro α β a b f g h hf
    rcases h with rfl | ⟨rfl, e, he, rfl⟩
    · cases a with
      | ok x => exact hf x
      | err e => exact Or.inl rfl
      | ub => exact Or.inl rfl
    · exact Or.inr ⟨rfl, e, he, rfl⟩

/-- Equal, undefined, or the exception `e`. -/
def Sim.weak (e : Err) : Sim where
  r a b := a = b ∨ a = .ub ∨ a = .err e
  refl _ := Or.inl rfl
  bind := by
    intro α β a b f g h hf
    rcases h with rfl | rfl | rfl
    · cases a with
      | ok x => exact hf x
      | err e => exact Or.inl rfl
      | ub => exact Or.inl rfl
    · exact Or.inr (Or.inl rfl)
    · exact Or.inr (Or.inr rfl)

variable {S : Sim} {t : TCfg}

/-- The options with the default for `ExpectLongNames`. -/
def TCfg.short (t : TCfg) : TCfg := { t with longNames := false }

theorem findName_short (t : TCfg) (names : List Bytes) (start : Nat) (key : Bytes) :
    findName t names start key = findName t.short names start key := by
  unfold findName
  rw [nameHash_long key t.longNames]
  rfl

theorem short_inside (t : TCfg) (r : Range) : t.short.inside r = (t.inside r).short := by
  unfold TCfg.inside TCfg.short
  dsimp only
  split <;> rfl

theorem Sim.then_ {α β : Type} {a : Res α} {f g : α → Res β} (h : ∀ x, S.r (f x) (g x)) : S.r (a >>= f) (a >>= g) :=
  S.bind (S.refl a) h

theorem findLoop_sim (hn : ∀ bs, S.r (parseNameX t bs) (parseName t.short bs)) (exact : Bool) (names : List Bytes) (pos : Nat) :
    ∀ (locs : Locs) (bs : Bytes), S.r (findLoopX t exact names pos locs bs) (findLoop t.short exact names pos locs bs) := by
  intro locs bs
  induction hk : bs.length using Nat.strongRecOn generalizing locs bs with
  | ind k ih =>
    cases bs with
    | nil => rw [findLoopX, findLoop]; exact S.refl _
    | cons c cs =>
      rw [findLoopX, findLoop]
      simp only [findName_short t, show t.short.cfg = t.cfg from rfl]
      by_cases hc : c = chRBrace
      · rw [if_pos hc, if_pos hc]; exact S.refl _
      rw [if_neg hc, if_neg hc]
      refine S.bind (hn _) ?_
      rintro ⟨name, b⟩
      dsimp only
      by_cases h1 : exact = true ∧ names.length ≤ findName t.short names pos name
      · rw [if_pos h1, if_pos h1]; exact S.refl _
      rw [if_neg h1, if_neg h1]
      by_cases h2 : names.length ≤ findName t.short names pos name
      · rw [if_pos h2, if_pos h2]
        refine Sim.then_ ?_
        rintro ⟨r, b₂⟩
        refine Sim.then_ fun b₃ => ?_
        by_cases h3 : b₃.length < (c :: cs).length
        · rw [dif_pos h3, dif_pos h3]; exact ih _ (hk ▸ h3) _ _ rfl
        · rw [dif_neg h3, dif_neg h3]; exact S.refl _
      rw [if_neg h2, if_neg h2]
      by_cases h4 : findName t.short names pos name = pos
      · rw [if_pos h4, if_pos h4]; exact S.refl _
      rw [if_neg h4, if_neg h4]
      refine Sim.then_ ?_
      rintro ⟨r, b₂⟩
      dsimp only
      split
      all_goals
        refine Sim.then_ fun b₃ => ?_
        by_cases h3 : b₃.length < (c :: cs).length
        · rw [dif_pos h3, dif_pos h3]; exact ih _ (hk ▸ h3) _ _ rfl
        · rw [dif_neg h3, dif_neg h3]; exact S.refl _

theorem findMember_sim (hn : ∀ bs, S.r (parseNameX t bs) (parseName t.short bs)) (exact : Bool) (names : List Bytes) (pos : Nat)
    (nullable : Bool) (locs : Locs) (bs : Bytes) :
    S.r (findMemberX t exact names pos nullable locs bs) (findMember t.short exact names pos nullable locs bs) := by
  unfold findMemberX findMember
  refine Sim.then_ fun _ => Sim.then_ fun b => ?_
  cases (locs[pos]?).join with
  | some q => exact S.refl _
  | none => exact findLoop_sim hn _ _ _ _ _

theorem classMembers_sim (hn : ∀ bs, S.r (parseNameX t bs) (parseName t.short bs)) (exact : Bool) (names : List Bytes)
    {pU pU' : Ty → Bytes → Res (Val × Bytes)} {pK pK' : Ty → Range → Bytes → Res Val}
    (hU : ∀ ty bs, S.r (pU' ty bs) (pU ty bs)) (hK : ∀ ty r a, S.r (pK' ty r a) (pK ty r a)) :
    ∀ (ms : List Member) (pos : Nat) (locs : Locs) (bs : Bytes),
      S.r (classMembersX t exact names pU' pK' pos ms locs bs) (classMembers t.short exact names pU pK pos ms locs bs) := by
  intro ms
  induction ms with
  | nil => intro pos locs bs; rw [classMembersX, classMembers]; exact S.refl _
  | cons m ms ih =>
    intro pos locs bs
    rw [classMembersX, classMembers]
    refine Sim.then_ fun b => Sim.then_ fun _ => ?_
    refine S.bind (findMember_sim hn _ _ _ _ _ _) ?_
    rintro ⟨f, locs', b'⟩
    dsimp only
    refine S.bind ?_ ?_
    · cases f with
      | here => exact hU _ _
      | known r a => exact S.bind (hK _ _ _) fun v => S.refl _
      | absent => exact S.refl _
    · rintro ⟨v, b''⟩
      exact S.bind (ih _ _ _) fun _ => S.refl _

theorem classCleanup_sim {x : Mode} (hm : ∀ bs, S.r (moveToMemberX x t bs) (moveToNextClassMember t.cfg bs)) (exact : Bool) (bs : Bytes) :
    S.r (classCleanupX x t exact bs) (classCleanup t.cfg exact bs) := by
  unfold classCleanupX classCleanup
  exact Sim.then_ fun _ => Sim.then_ fun b => S.bind (hm b) fun _ => S.refl _

theorem parseObj_sim {x : Mode} (hn : ∀ bs, S.r (parseNameX t bs) (parseName t.short bs))
    (hm : ∀ bs, S.r (moveToMemberX x t bs) (moveToNextClassMember t.cfg bs)) (exact : Bool) (ms : List Member)
    {pU pU' : Ty → Bytes → Res (Val × Bytes)} {pK pK' : Ty → Range → Bytes → Res Val}
    (hU : ∀ ty bs, S.r (pU' ty bs) (pU ty bs)) (hK : ∀ ty r a, S.r (pK' ty r a) (pK ty r a)) (bs : Bytes) :
    S.r (parseObjX x t exact ms pU' pK' bs) (parseObj t.short exact ms pU pK bs) := by
  unfold parseObjX parseObj
  refine Sim.then_ fun b => Sim.then_ fun _ => Sim.then_ fun b => S.bind (classMembers_sim hn exact _ hU hK _ _ _ _) ?_
  rintro ⟨vs, b⟩
  exact S.bind (classCleanup_sim hm exact b) fun _ => S.refl _

/-! ## The two functions that differ -/

theorem parseNameX_short (h : t.longNames = false ∨ t.escNames = true) (bs : Bytes) : parseNameX t bs = parseName t bs := by
  unfold parseNameX parseName
  rcases h with h | h <;> simp [h]

theorem parseNameX_long (bs : Bytes) :
    parseNameX t bs = parseName t bs ∨ (parseNameX t bs = .ub ∧ parseName t bs = .err .invalidString) := by
  by_cases hb : t.escNames = false ∧ t.longNames = true ∧ (toQuote bs.tail).2 = []
  · obtain ⟨h1, h2, h3⟩ := hb
    unfold parseNameX parseName
    simp only [h1, h2, h3, Bool.false_eq_true, if_false, and_self, if_true]
    cases hd : assertWeak t.cfg.checked (headIs (· == chQuote) bs) .invalidMemberName with
    | err e => exact Or.inl rfl
    | ub => exact Or.inl rfl
    | ok u =>
      cases bs with
      | nil => exact Or.inl rfl
      | cons c cs =>
        cases hck : t.cfg.checked with
        | false => left; rfl
        | true => right; exact ⟨rfl, rfl⟩
  · left
    unfold parseNameX parseName
    cases he : t.escNames with
    | true => rfl
    | false =>
      have : ¬ (t.longNames = true ∧ (toQuote bs.tail).2 = []) := fun h => hb ⟨he, h⟩
      simp only [Bool.false_eq_true, if_false, if_neg this]

theorem parseName_short (t : TCfg) (bs : Bytes) : parseName t.short bs = parseName t bs := rfl

theorem mempbrk_short (cfg : Cfg) (debug : Bool) (bs : Bytes) :
    mempbrk false debug [chQuote, chRBrace] bs = moveToNextClassMember cfg bs ∨
    (mempbrk false debug [chQuote, chRBrace] bs = .ub ∧ moveToNextClassMember cfg bs = .err .unexpectedEndOfData) := by
  induction bs with
  | nil => cases h : cfg.checked <;> simp [mempbrk, moveToNextClassMember, h]
  | cons c cs ih =>
    rw [mempbrk, moveToNextClassMember]
    by_cases hc : c = chQuote ∨ c = chRBrace
    · rw [if_pos hc, if_pos (by simpa using hc)]; exact Or.inl rfl
    · rw [if_neg hc, if_neg (by simpa using hc)]; simpa using ih

theorem mempbrk_any (cfg : Cfg) (long debug : Bool) (bs : Bytes) :
    mempbrk long debug [chQuote, chRBrace] bs = moveToNextClassMember cfg bs ∨
    mempbrk long debug [chQuote, chRBrace] bs = .ub ∨ mempbrk long debug [chQuote, chRBrace] bs = .err .unexpectedEndOfData := by
  induction bs with
  | nil => simp [mempbrk]
  | cons c cs ih =>
    rw [mempbrk, moveToNextClassMember]
    by_cases hc : c = chQuote ∨ c = chRBrace
    · rw [if_pos hc, if_pos (by simpa using hc)]; exact Or.inl rfl
    · rw [if_neg hc, if_neg (by simpa using hc)]
      split
      · split
        · exact Or.inr (Or.inr rfl)
        · exact Or.inr (Or.inl rfl)
      · exact ih

/-! ## Dispatch -/

theorem tupMembers_sim {pU pU' : Ty → Bytes → Res (Val × Bytes)} (cfg : Cfg) (hU : ∀ ty bs, S.r (pU' ty bs) (pU ty bs)) (ts : List Ty) :
    ∀ bs, S.r (tupMembers cfg pU' ts bs) (tupMembers cfg pU ts bs) := by
  induction ts with
  | nil => intro bs; exact S.refl _
  | cons ty ts ih =>
    intro bs
    rw [tupMembers, tupMembers]
    refine Sim.then_ fun _ => S.bind (hU _ _) ?_
    rintro ⟨v, b⟩
    exact Sim.then_ fun b => S.bind (ih b) fun _ => S.refl _

theorem parseTup_sim {pU pU' : Ty → Bytes → Res (Val × Bytes)} (cfg : Cfg) (hU : ∀ ty bs, S.r (pU' ty bs) (pU ty bs)) (exact : Bool)
    (ts : List Ty) (bs : Bytes) : S.r (parseTup cfg exact ts pU' bs) (parseTup cfg exact ts pU bs) := by
  unfold parseTup
  exact Sim.then_ fun _ => Sim.then_ fun _ => Sim.then_ fun _ => Sim.then_ fun _ => S.bind (tupMembers_sim cfg hU ts _) fun _ => S.refl _

theorem ordMembers_sim {pU pU' : Ty → Bytes → Res (Val × Bytes)} (cfg : Cfg) (hU : ∀ ty bs, S.r (pU' ty bs) (pU ty bs))
    (ms : List (Option Nat × Ty)) : ∀ idx bs, S.r (ordMembers cfg pU' idx ms bs) (ordMembers cfg pU idx ms bs) := by
  induction ms with
  | nil => intro idx bs; exact S.refl _
  | cons m ms ih =>
    intro idx bs
    obtain ⟨want, ty⟩ := m
    rw [ordMembers, ordMembers]
    refine Sim.then_ fun _ => Sim.then_ ?_
    rintro ⟨i, b⟩
    refine Sim.then_ fun c => S.bind ?_ ?_
    · by_cases hc : c = chRBrack
      · rw [if_pos hc, if_pos hc]; exact S.refl _
      · rw [if_neg hc, if_neg hc]; exact hU _ _
    · rintro ⟨v, b⟩
      exact S.bind (ih _ _) fun _ => S.refl _

theorem parseOrd_sim {pU pU' : Ty → Bytes → Res (Val × Bytes)} (cfg : Cfg) (hU : ∀ ty bs, S.r (pU' ty bs) (pU ty bs)) (exact : Bool)
    (ms : List (Option Nat × Ty)) (bs : Bytes) : S.r (parseOrd cfg exact ms pU' bs) (parseOrd cfg exact ms pU bs) := by
  unfold parseOrd
  exact Sim.then_ fun _ => Sim.then_ fun _ => Sim.then_ fun _ => S.bind (ordMembers_sim cfg hU ms _ _) fun _ => S.refl _

theorem arrLoop_sim {p p' : Bytes → Res (Val × Bytes)} (cfg : Cfg) (hp : ∀ bs, S.r (p' bs) (p bs)) :
    ∀ bs, S.r (arrLoop cfg p' bs) (arrLoop cfg p bs) := by
  intro bs
  induction hk : bs.length using Nat.strongRecOn generalizing bs with
  | ind k ih =>
    rw [arrLoop.eq_def, arrLoop.eq_def]
    refine Sim.then_ fun _ => S.bind (hp _) ?_
    rintro ⟨v, b⟩
    refine Sim.then_ fun _ => Sim.then_ fun _ => Sim.then_ fun b => Sim.then_ fun _ => Sim.then_ fun c => ?_
    by_cases hc : c = chRBrack
    · rw [if_pos hc, if_pos hc]; exact S.refl _
    rw [if_neg hc, if_neg hc]
    by_cases h3 : b.length < bs.length
    · rw [dif_pos h3, dif_pos h3]; exact S.bind (ih _ (hk ▸ h3) _ rfl) fun _ => S.refl _
    · rw [dif_neg h3, dif_neg h3]; exact S.refl _

theorem mapLoop_sim {p p' : Bytes → Res (Val × Bytes)} (cfg : Cfg) (hp : ∀ bs, S.r (p' bs) (p bs)) :
    ∀ bs, S.r (mapLoop cfg p' bs) (mapLoop cfg p bs) := by
  intro bs
  induction hk : bs.length using Nat.strongRecOn generalizing bs with
  | ind k ih =>
    rw [mapLoop.eq_def, mapLoop.eq_def]
    refine Sim.then_ fun _ => Sim.then_ ?_
    rintro ⟨key, b⟩
    refine Sim.then_ fun _ => S.bind (hp _) ?_
    rintro ⟨v, b⟩
    refine Sim.then_ fun b => Sim.then_ fun _ => Sim.then_ fun c => ?_
    by_cases hc : c = chRBrace
    · rw [if_pos hc, if_pos hc]; exact S.refl _
    rw [if_neg hc, if_neg hc]
    by_cases h3 : b.length < bs.length
    · rw [dif_pos h3, dif_pos h3]; exact S.bind (ih _ (hk ▸ h3) _ rfl) fun _ => S.refl _
    · rw [dif_neg h3, dif_neg h3]; exact S.refl _

theorem parseArr_sim {p p' : Bytes → Res (Val × Bytes)} (cfg : Cfg) (hp : ∀ bs, S.r (p' bs) (p bs)) (bs : Bytes) :
    S.r (parseArr cfg p' bs) (parseArr cfg p bs) := by
  unfold parseArr
  refine Sim.then_ fun _ => Sim.then_ fun _ => Sim.then_ fun b => Sim.then_ fun c => ?_
  by_cases hc : c = chRBrack
  · rw [if_pos hc, if_pos hc]; exact S.refl _
  · rw [if_neg hc, if_neg hc]; exact S.bind (arrLoop_sim cfg hp _) fun _ => S.refl _

theorem parseMap_sim {p p' : Bytes → Res (Val × Bytes)} (cfg : Cfg) (hp : ∀ bs, S.r (p' bs) (p bs)) (bs : Bytes) :
    S.r (parseMap cfg p' bs) (parseMap cfg p bs) := by
  unfold parseMap
  refine Sim.then_ fun _ => Sim.then_ fun _ => Sim.then_ fun b => Sim.then_ fun c => ?_
  by_cases hc : c = chRBrace
  · rw [if_pos hc, if_pos hc]; exact S.refl _
  · rw [if_neg hc, if_neg hc]; exact S.bind (mapLoop_sim cfg hp _) fun _ => S.refl _

/-- What a relation must know of the options: it holds of the two functions that differ. -/
def Sim.Good (S : Sim) (x : Mode) (t : TCfg) : Prop :=
  (∀ bs, S.r (parseNameX t bs) (parseName t.short bs)) ∧ (∀ bs, S.r (moveToMemberX x t bs) (moveToNextClassMember t.cfg bs))

theorem parseUK_sim {x : Mode} {long : Bool} (Δ : Env) (hg : ∀ t : TCfg, t.longNames = long → S.Good x t) (f : Nat) :
    ∀ t : TCfg, t.longNames = long →
      (∀ ty bs, S.r (parseUX x t Δ f ty bs) (parseU t.short Δ f ty bs)) ∧
      (∀ ty r a, S.r (parseKX x t Δ f ty r a) (parseK t.short Δ f ty r a)) := by
  induction f with
  | zero =>
    intro t _
    refine ⟨fun ty bs => ?_, fun ty r a => ?_⟩
    · rw [parseUX.eq_def, parseU.eq_def]; exact S.refl _
    · rw [parseKX.eq_def, parseK.eq_def]; exact S.refl _
  | succ f ih =>
    intro t ht
    obtain ⟨hU, hK⟩ := ih t ht
    have hO := fun exact ms bs => parseObj_sim (hg t ht).1 (hg t ht).2 exact ms hU hK bs
    refine ⟨fun ty bs => ?_, fun ty r a => ?_⟩
    · rw [parseUX.eq_def x t Δ (f + 1), parseU.eq_def t.short Δ (f + 1)]
      dsimp only
      cases ty with
      | bool => exact S.refl _
      | int _ _ => exact S.refl _
      | str _ => exact S.refl _
      | txt _ => exact S.refl _
      | opt ty =>
        refine Sim.then_ fun o => ?_
        cases o with
        | some r => exact S.refl _
        | none => exact S.bind (hU _ _) fun _ => S.refl _
      | arr ty => exact parseArr_sim _ (hU ty) _
      | map ty => exact parseMap_sim _ (hU ty) _
      | ref i =>
        dsimp only
        cases Δ i with
        | obj ms exact => exact Sim.then_ fun _ => S.bind (hO _ _ _) fun _ => S.refl _
        | tup ts exact => exact parseTup_sim _ hU _ _ _
        | ord ms exact => exact Sim.then_ fun _ => S.bind (parseOrd_sim _ hU _ _ _) fun _ => S.refl _
        | var alts => exact Sim.then_ fun _ => Sim.then_ fun _ => S.bind (hU _ _) fun _ => S.refl _
        | ivar tag sw alts =>
          refine Sim.then_ fun _ => S.bind (hO _ _ _) ?_
          rintro ⟨w, b⟩
          exact Sim.then_ fun _ => S.bind (hU _ _) fun _ => S.refl _
    · have hi : (t.inside r).longNames = long := by
        rw [← ht]; unfold TCfg.inside; split <;> rfl
      obtain ⟨hU', hK'⟩ := ih (t.inside r) hi
      have hO' := fun exact ms bs => parseObj_sim (hg (t.inside r) hi).1 (hg (t.inside r) hi).2 exact ms hU' hK' bs
      rw [parseKX.eq_def x t Δ (f + 1), parseK.eq_def t.short Δ (f + 1)]
      simp only [short_inside]
      cases ty with
      | bool => exact S.refl _
      | int _ _ => exact S.refl _
      | str _ => exact S.refl _
      | txt _ => exact S.refl _
      | opt ty =>
        dsimp only
        by_cases hn : r.null = true
        · rw [if_pos hn, if_pos hn]; exact S.refl _
        · rw [if_neg hn, if_neg hn]; exact S.bind (hK _ _ _) fun _ => S.refl _
      | arr ty => exact S.bind (parseArr_sim _ (hU' ty) _) fun _ => S.refl _
      | map ty => exact S.bind (parseMap_sim _ (hU' ty) _) fun _ => S.refl _
      | ref i =>
        dsimp only
        cases Δ i with
        | obj ms exact => exact Sim.then_ fun _ => S.bind (hO' _ _ _) fun _ => S.refl _
        | tup ts exact => exact S.bind (parseTup_sim _ hU' _ _ _) fun _ => S.refl _
        | ord ms exact => exact Sim.then_ fun _ => S.bind (parseOrd_sim _ hU' _ _ _) fun _ => S.refl _
        | var alts => exact Sim.then_ fun _ => S.bind (hK _ _ _) fun _ => S.refl _
        | ivar tag sw alts =>
          refine Sim.then_ fun _ => S.bind (hO' _ _ _) ?_
          rintro ⟨w, b⟩
          exact Sim.then_ fun _ => S.bind (hU' _ _) fun _ => S.refl _

theorem fromJson_sim {x : Mode} {long : Bool} (Δ : Env) (hg : ∀ t : TCfg, t.longNames = long → S.Good x t) (fuel : Nat) (t : TCfg)
    (ht : t.longNames = long) (ty : Ty) (bs : Bytes) : S.r (fromJsonX x t Δ fuel ty bs) (fromJson t.short Δ fuel ty bs) := by
  unfold fromJsonX fromJson
  exact Sim.then_ fun _ => S.bind ((parseUK_sim Δ hg fuel t ht).1 _ _) fun _ => S.refl _

end Verif
