import Verif.Model.ReportIn
import Verif.Proof.Report

/-!
# The member an exception names, in classes inside of others
-/

namespace Verif

open Spec

section
variable {t : TCfg} {exact : Bool} {N : List Bytes} {pU : Ty → Bytes → Res (Val × Bytes)} {pK : Ty → Range → Bytes → Res Val}
  {qU : Ty → Bytes → Option Bytes} {qK : Ty → Range → Bytes → Option Bytes}
  (hU : ∀ ty b n, qU ty b = some n → pU ty b = .err .missingMember) (hK : ∀ ty r a n, qK ty r a = some n → pK ty r a = .err .missingMember)
include hU hK

theorem memberMiss_sound {pos : Nat} {m : Member} {locs : Locs} {bs n : Bytes} (h : memberMiss t exact N qU qK pos m locs bs = some n) :
    classMember t exact N pU pK pos m locs bs = .err .missingMember := by
  unfold memberMiss at h
  unfold classMember
  cases hm : moveNext t.cfg bs with
  | err e => rw [hm] at h; simp at h
  | ub => rw [hm] at h; simp at h
  | ok b =>
    rw [hm] at h
    simp only at h
    by_cases h1 : (!t.cfg.checked || headIs (fun c => c == chQuote || c == chRBrace) b) = true
    · rw [if_pos h1] at h
      have ha : assertWeak t.cfg.checked (headIs (fun c => c == chQuote || c == chRBrace) b) .missingMemberNameOrEndOfClass = .ok () := by
        simp only [Bool.or_eq_true, Bool.not_eq_true'] at h1
        rcases h1 with h1 | h1
        · simp [assertWeak, h1]
        · rw [h1]; exact assertWeak_tt ..
      simp only [Res.ok_bind, ha]
      cases hf : findMember t exact N pos m.ty.isOpt locs b with
      | ub => rw [hf] at h; simp at h
      | err e => rw [hf] at h; simp at h
      | ok q =>
        obtain ⟨f, locs', b'⟩ := q
        rw [hf] at h
        cases f with
        | here => simp only [Res.ok_bind, hU _ _ _ h, Res.err_bind]
        | known r a => simp only [Res.ok_bind, hK _ _ _ _ h, Res.err_bind]
        | absent => simp at h
    · rw [if_neg h1] at h
      simp at h

theorem missMembers_sound : ∀ (ms : List Member) (pos : Nat) (locs : Locs) (bs n : Bytes), missMembers t exact N pU pK qU qK pos ms locs bs = some n →
    classMembers t exact N pU pK pos ms locs bs = .err .missingMember
  | [], _, _, _, _, h => by simp [missMembers] at h
  | m :: ms, pos, locs, bs, n, h => by
    unfold missMembers at h
    rw [classMembers_cons]
    by_cases hm : memberMissing t exact N pos m locs bs = true
    · rw [classMember_missing hm]; rfl
    · rw [if_neg hm] at h
      cases hc : classMember t exact N pU pK pos m locs bs with
      | err e =>
        rw [hc] at h
        rw [← hc, memberMiss_sound hU hK h]; rfl
      | ub =>
        rw [hc] at h
        rw [← hc, memberMiss_sound hU hK h]; rfl
      | ok p =>
        obtain ⟨v, locs', b⟩ := p
        rw [hc] at h
        simp only [Res.ok_bind, missMembers_sound ms (pos + 1) locs' b n h, Res.err_bind]

theorem missObj_sound {ms : List Member} {bs n : Bytes} (h : missObj t exact ms pU pK qU qK bs = some n) :
    parseObj t exact ms pU pK bs = .err .missingMember := by
  unfold missObj at h
  unfold parseObj
  cases hm : trim t.cfg bs with
  | err e => rw [hm] at h; simp at h
  | ub => rw [hm] at h; simp at h
  | ok b =>
    rw [hm] at h
    simp only at h
    by_cases h1 : (!t.cfg.checked || headIs (· == chLBrace) b) = true
    · rw [if_pos h1] at h
      have ha : assertWeak t.cfg.checked (headIs (· == chLBrace) b) .invalidClassStart = .ok () := by
        simp only [Bool.or_eq_true, Bool.not_eq_true'] at h1
        rcases h1 with h1 | h1
        · simp [assertWeak, h1]
        · rw [h1]; exact assertWeak_tt ..
      simp only [Res.ok_bind, ha]
      cases hf : trim t.cfg b.tail with
      | ub => rw [hf] at h; simp at h
      | err e => rw [hf] at h; simp at h
      | ok b' =>
        rw [hf] at h
        simp only [Res.ok_bind, missMembers_sound hU hK _ _ _ _ _ h, Res.err_bind]
    · rw [if_neg h1] at h
      simp at h
end

section
variable {cfg : Cfg} {p : Bytes → Res (Val × Bytes)} {q : Bytes → Option Bytes} (hq : ∀ b n, q b = some n → p b = .err .missingMember)
include hq

theorem missArrLoop_sound : ∀ (len : Nat) (bs n : Bytes), bs.length ≤ len → missArrLoop cfg p q bs = some n → arrLoop cfg p bs = .err .missingMember := by
  intro len
  induction len with
  | zero =>
    intro bs n hl h
    obtain rfl := List.eq_nil_of_length_eq_zero (Nat.le_zero.1 hl)
    unfold missArrLoop at h
    unfold arrLoop
    cases hck : cfg.checked with
    | true => rw [hck] at h; simp at h
    | false =>
      rw [hck] at h
      simp only [Bool.false_and, Bool.false_eq_true, if_false] at h
      simp only [assertWeak, Bool.false_eq_true, if_false, Res.ok_bind]
      cases hp : p [] with
      | err e => rw [hp] at h; rw [← hp, hq _ _ h]; rfl
      | ub => rw [hp] at h; rw [← hp, hq _ _ h]; rfl
      | ok x =>
        rw [hp] at h
        simp only [List.length_nil, Nat.not_lt_zero, dite_false] at h
        split at h <;> simp at h
  | succ len ih =>
    intro bs n hl h
    unfold missArrLoop at h
    unfold arrLoop
    by_cases he : (cfg.checked && bs.isEmpty) = true
    · rw [if_pos he] at h; simp at h
    · rw [if_neg he] at h
      have ha : assertWeak cfg.checked (!bs.isEmpty) .unexpectedEndOfData = .ok () := by
        cases hck : cfg.checked <;> cases hb : bs.isEmpty <;> simp_all [assertWeak, ensure]
      simp only [ha, Res.ok_bind]
      cases hp : p bs with
      | err e => rw [hp] at h; rw [← hp, hq _ _ h]; rfl
      | ub => rw [hp] at h; rw [← hp, hq _ _ h]; rfl
      | ok x =>
        obtain ⟨v, b⟩ := x
        rw [hp] at h
        simp only [Res.ok_bind] at h ⊢
        cases h1 : trim cfg b with
        | err e => rw [h1] at h; simp at h
        | ub => rw [h1] at h; simp at h
        | ok b1 =>
          rw [h1] at h
          simp only [Res.ok_bind] at h ⊢
          cases h2 : assertWeak cfg.checked (headIs (fun c => c == chComma || c == chRBrack) b1) .unexpectedEndOfData with
          | err e => rw [h2] at h; simp at h
          | ub => rw [h2] at h; simp at h
          | ok u =>
            rw [h2] at h
            simp only [Res.ok_bind] at h ⊢
            cases h3 : moveNext cfg b1 with
            | err e => rw [h3] at h; simp at h
            | ub => rw [h3] at h; simp at h
            | ok b2 =>
              rw [h3] at h
              simp only [Res.ok_bind] at h ⊢
              cases h4 : assertWeak cfg.checked (!b2.isEmpty) .unexpectedEndOfData with
              | err e => rw [h4] at h; simp at h
              | ub => rw [h4] at h; simp at h
              | ok u =>
                rw [h4] at h
                simp only [Res.ok_bind] at h ⊢
                cases h5 : deref b2 with
                | err e => rw [h5] at h; simp at h
                | ub => rw [h5] at h; simp at h
                | ok c =>
                  rw [h5] at h
                  simp only [Res.ok_bind] at h ⊢
                  by_cases hc : c = chRBrack
                  · rw [if_pos hc] at h; simp at h
                  · rw [if_neg hc] at h ⊢
                    by_cases hlt : b2.length < bs.length
                    · rw [dif_pos hlt] at h ⊢
                      rw [ih b2 n (by omega) h]; rfl
                    · rw [dif_neg hlt] at h; simp at h

theorem missArr_sound {bs n : Bytes} (h : missArr cfg p q bs = some n) : parseArr cfg p bs = .err .missingMember := by
  unfold missArr at h
  unfold parseArr
  cases h1 : trim cfg bs with
  | err e => rw [h1] at h; simp at h
  | ub => rw [h1] at h; simp at h
  | ok b1 =>
    rw [h1] at h
    simp only [Res.ok_bind] at h ⊢
    cases h2 : assertWeak cfg.checked (headIs (· == chLBrack) b1) .invalidArrayStart with
    | err e => rw [h2] at h; simp at h
    | ub => rw [h2] at h; simp at h
    | ok u =>
      rw [h2] at h
      simp only [Res.ok_bind] at h ⊢
      cases h3 : trimUncheckedEnd cfg b1.tail with
      | err e => rw [h3] at h; simp at h
      | ub => rw [h3] at h; simp at h
      | ok b2 =>
        rw [h3] at h
        simp only [Res.ok_bind] at h ⊢
        cases h4 : derefEnd cfg b2 with
        | err e => rw [h4] at h; simp at h
        | ub => rw [h4] at h; simp at h
        | ok c =>
          rw [h4] at h
          simp only [Res.ok_bind] at h ⊢
          by_cases hc : c = chRBrack
          · rw [if_pos hc] at h; simp at h
          · rw [if_neg hc] at h ⊢
            rw [missArrLoop_sound hq _ _ _ (Nat.le_refl _) h]; rfl

theorem missMapLoop_sound : ∀ (len : Nat) (bs n : Bytes), bs.length ≤ len → missMapLoop cfg p q bs = some n → mapLoop cfg p bs = .err .missingMember := by
  intro len
  induction len using Nat.strongRecOn with
  | _ len ih =>
    intro bs n hl h
    unfold missMapLoop at h
    unfold mapLoop
    cases h1 : assertWeak cfg.checked (!bs.isEmpty) .unexpectedEndOfData with
    | err e => rw [h1] at h; simp at h
    | ub => rw [h1] at h; simp at h
    | ok u =>
      rw [h1] at h
      simp only [Res.ok_bind] at h ⊢
      cases h2 : parseStr cfg true bs with
      | err e => rw [h2] at h; simp at h
      | ub => rw [h2] at h; simp at h
      | ok x =>
        obtain ⟨key, b0⟩ := x
        rw [h2] at h
        simp only [Res.ok_bind] at h ⊢
        cases h3 : trimEndOfName cfg b0 with
        | err e => rw [h3] at h; simp at h
        | ub => rw [h3] at h; simp at h
        | ok b1 =>
          rw [h3] at h
          simp only [Res.ok_bind] at h ⊢
          cases hp : p b1 with
          | err e => rw [hp] at h; rw [← hp, hq _ _ h]; rfl
          | ub => rw [hp] at h; rw [← hp, hq _ _ h]; rfl
          | ok x =>
            obtain ⟨v, b⟩ := x
            rw [hp] at h
            simp only [Res.ok_bind] at h ⊢
            cases h4 : moveNext cfg b with
            | err e => rw [h4] at h; simp at h
            | ub => rw [h4] at h; simp at h
            | ok b2 =>
              rw [h4] at h
              simp only [Res.ok_bind] at h ⊢
              cases h5 : assertWeak cfg.checked (!b2.isEmpty) .unexpectedEndOfData with
              | err e => rw [h5] at h; simp at h
              | ub => rw [h5] at h; simp at h
              | ok u =>
                rw [h5] at h
                simp only [Res.ok_bind] at h ⊢
                cases h6 : deref b2 with
                | err e => rw [h6] at h; simp at h
                | ub => rw [h6] at h; simp at h
                | ok c =>
                  rw [h6] at h
                  simp only [Res.ok_bind] at h ⊢
                  by_cases hc : c = chRBrace
                  · rw [if_pos hc] at h; simp at h
                  · rw [if_neg hc] at h ⊢
                    by_cases hlt : b2.length < bs.length
                    · rw [dif_pos hlt] at h ⊢
                      rw [ih b2.length (by omega) b2 n (Nat.le_refl _) h]; rfl
                    · rw [dif_neg hlt] at h; simp at h

theorem missMap_sound {bs n : Bytes} (h : missMap cfg p q bs = some n) : parseMap cfg p bs = .err .missingMember := by
  unfold missMap at h
  unfold parseMap
  cases h1 : assertWeak cfg.checked (headIs (· == chLBrace) bs) .expectedKeyValueToStartWithBrace with
  | err e => rw [h1] at h; simp at h
  | ub => rw [h1] at h; simp at h
  | ok u =>
    rw [h1] at h
    simp only [Res.ok_bind] at h ⊢
    cases h2 : trim cfg bs.tail with
    | err e => rw [h2] at h; simp at h
    | ub => rw [h2] at h; simp at h
    | ok b2 =>
      rw [h2] at h
      simp only [Res.ok_bind] at h ⊢
      cases h3 : ensure (!b2.isEmpty) .unexpectedEndOfData with
      | err e => rw [h3] at h; simp at h
      | ub => rw [h3] at h; simp at h
      | ok u =>
        rw [h3] at h
        simp only [Res.ok_bind] at h ⊢
        cases h4 : deref b2 with
        | err e => rw [h4] at h; simp at h
        | ub => rw [h4] at h; simp at h
        | ok c =>
          rw [h4] at h
          simp only [Res.ok_bind] at h ⊢
          by_cases hc : c = chRBrace
          · rw [if_pos hc] at h; simp at h
          · rw [if_neg hc] at h ⊢
            rw [missMapLoop_sound hq _ _ _ (Nat.le_refl _) h]; rfl
end

/-- What stands in front of the members of a class. -/
theorem assertEmpty_ok {c : Bool} {bs : Bytes} {e : Err} (h : ¬ (c && bs.isEmpty) = true) : assertWeak c (!bs.isEmpty) e = .ok () := by
  cases c <;> cases hb : bs.isEmpty <;> simp_all [assertWeak, ensure]

section
variable {cfg : Cfg} {pU : Ty → Bytes → Res (Val × Bytes)} {qU : Ty → Bytes → Option Bytes}
  (hU : ∀ ty b n, qU ty b = some n → pU ty b = .err .missingMember)
include hU

theorem missTupMembers_sound : ∀ (ts : List Ty) (bs n : Bytes), missTupMembers cfg pU qU ts bs = some n → tupMembers cfg pU ts bs = .err .missingMember
  | [], _, _, h => by simp [missTupMembers] at h
  | ty :: ts, bs, n, h => by
    unfold missTupMembers at h
    unfold tupMembers
    by_cases he : (cfg.checked && bs.isEmpty) = true
    · rw [if_pos he] at h; simp at h
    · rw [if_neg he] at h
      simp only [assertEmpty_ok he, Res.ok_bind]
      cases hp : pU ty bs with
      | err e => rw [hp] at h; rw [← hp, hU _ _ _ h]; rfl
      | ub => rw [hp] at h; rw [← hp, hU _ _ _ h]; rfl
      | ok x =>
        obtain ⟨v, b⟩ := x
        rw [hp] at h
        simp only [Res.ok_bind] at h ⊢
        cases hm : moveNext cfg b with
        | err e => rw [hm] at h; simp at h
        | ub => rw [hm] at h; simp at h
        | ok b2 =>
          rw [hm] at h
          simp only [Res.ok_bind, missTupMembers_sound ts b2 n h, Res.err_bind]

theorem missTup_sound {exact : Bool} {ts : List Ty} {bs n : Bytes} (h : missTup cfg ts pU qU bs = some n) :
    parseTup cfg exact ts pU bs = .err .missingMember := by
  unfold missTup at h
  unfold parseTup
  cases h1 : trim cfg bs with
  | err e => rw [h1] at h; simp at h
  | ub => rw [h1] at h; simp at h
  | ok b1 =>
    rw [h1] at h
    simp only [Res.ok_bind] at h ⊢
    cases h2 : assertWeak cfg.checked (headIs (· == chLBrack) b1) .invalidArrayStart with
    | err e => rw [h2] at h; simp at h
    | ub => rw [h2] at h; simp at h
    | ok u =>
      rw [h2] at h
      simp only [Res.ok_bind] at h ⊢
      cases h3 : moveNext cfg b1.tail with
      | err e => rw [h3] at h; simp at h
      | ub => rw [h3] at h; simp at h
      | ok b2 =>
        rw [h3] at h
        simp only [Res.ok_bind] at h ⊢
        cases h4 : trim cfg b2 with
        | err e => rw [h4] at h; simp at h
        | ub => rw [h4] at h; simp at h
        | ok b3 =>
          rw [h4] at h
          simp only [Res.ok_bind, missTupMembers_sound hU _ _ _ h, Res.err_bind]

theorem missOrdMembers_sound : ∀ (ms : List (Option Nat × Ty)) (idx : Nat) (bs n : Bytes), missOrdMembers cfg pU qU idx ms bs = some n →
    ordMembers cfg pU idx ms bs = .err .missingMember
  | [], _, _, _, h => by simp [missOrdMembers] at h
  | (want, ty) :: ms, idx, bs, n, h => by
    unfold missOrdMembers at h
    unfold ordMembers
    cases h1 : moveNext cfg bs with
    | err e => rw [h1] at h; simp at h
    | ub => rw [h1] at h; simp at h
    | ok b1 =>
      rw [h1] at h
      simp only [Res.ok_bind] at h ⊢
      cases want with
      | some w =>
        dsimp only at h ⊢
        generalize maybeSkip cfg ty.isOpt idx w b1 = x at h ⊢
        cases x with
        | err e => simp at h
        | ub => simp at h
        | ok x =>
          obtain ⟨idx', b2⟩ := x
          simp only [Res.ok_bind] at h ⊢
          cases h2 : derefEnd cfg b2 with
          | err e => rw [h2] at h; simp at h
          | ub => rw [h2] at h; simp at h
          | ok c =>
            rw [h2] at h
            simp only [Res.ok_bind] at h ⊢
            by_cases hc : c = chRBrack
            · rw [if_pos hc] at h ⊢
              by_cases ho : ty.isOpt = true
              · rw [if_pos ho] at h ⊢
                simp only [Res.ok_bind, missOrdMembers_sound ms _ _ n h, Res.err_bind]
              · rw [if_neg ho]; rfl
            · rw [if_neg hc] at h ⊢
              cases hp : pU ty b2 with
              | err e => rw [hp] at h; rw [← hp, hU _ _ _ h]; rfl
              | ub => rw [hp] at h; rw [← hp, hU _ _ _ h]; rfl
              | ok x =>
                obtain ⟨v, b⟩ := x
                rw [hp] at h
                simp only [Res.ok_bind, missOrdMembers_sound ms _ _ n h, Res.err_bind]
      | none =>
        dsimp only at h ⊢
        generalize (assertWeak cfg.checked (!b1.isEmpty) .unexpectedEndOfData >>= fun _ => Res.ok (idx, b1)) = x at h ⊢
        cases x with
        | err e => simp at h
        | ub => simp at h
        | ok x =>
          obtain ⟨idx', b2⟩ := x
          simp only [Res.ok_bind] at h ⊢
          cases h2 : derefEnd cfg b2 with
          | err e => rw [h2] at h; simp at h
          | ub => rw [h2] at h; simp at h
          | ok c =>
            rw [h2] at h
            simp only [Res.ok_bind] at h ⊢
            by_cases hc : c = chRBrack
            · rw [if_pos hc] at h ⊢
              by_cases ho : ty.isOpt = true
              · rw [if_pos ho] at h ⊢
                simp only [Res.ok_bind, missOrdMembers_sound ms _ _ n h, Res.err_bind]
              · rw [if_neg ho]; rfl
            · rw [if_neg hc] at h ⊢
              cases hp : pU ty b2 with
              | err e => rw [hp] at h; rw [← hp, hU _ _ _ h]; rfl
              | ub => rw [hp] at h; rw [← hp, hU _ _ _ h]; rfl
              | ok x =>
                obtain ⟨v, b⟩ := x
                rw [hp] at h
                simp only [Res.ok_bind, missOrdMembers_sound ms _ _ n h, Res.err_bind]

theorem missOrd_sound {exact : Bool} {ms : List (Option Nat × Ty)} {bs n : Bytes} (h : missOrd cfg ms pU qU bs = some n) :
    parseOrd cfg exact ms pU bs = .err .missingMember := by
  unfold missOrd at h
  unfold parseOrd
  cases h1 : trim cfg bs with
  | err e => rw [h1] at h; simp at h
  | ub => rw [h1] at h; simp at h
  | ok b1 =>
    rw [h1] at h
    simp only [Res.ok_bind] at h ⊢
    cases h2 : assertWeak cfg.checked (headIs (· == chLBrack) b1) .invalidArrayStart with
    | err e => rw [h2] at h; simp at h
    | ub => rw [h2] at h; simp at h
    | ok u =>
      rw [h2] at h
      simp only [Res.ok_bind] at h ⊢
      cases h3 : trim cfg b1.tail with
      | err e => rw [h3] at h; simp at h
      | ub => rw [h3] at h; simp at h
      | ok b2 =>
        rw [h3] at h
        simp only [Res.ok_bind, missOrdMembers_sound hU _ _ _ _ h, Res.err_bind]
end

/-- If a name is given, the parse ended with that exception. -/
theorem miss_sound (Δ : Env) : ∀ (f : Nat) (t : TCfg) (ty : Ty), (∀ bs n, missU t Δ f ty bs = some n → parseU t Δ f ty bs = .err .missingMember) ∧
    (∀ r a n, missK t Δ f ty r a = some n → parseK t Δ f ty r a = .err .missingMember)
  | 0, t, ty => by simp [missU, missK]
  | f + 1, t, ty => by
    have ih := miss_sound Δ f
    have hU : ∀ t ty b n, missU t Δ f ty b = some n → parseU t Δ f ty b = .err .missingMember := fun t ty => (ih t ty).1
    have hK : ∀ t ty r a n, missK t Δ f ty r a = some n → parseK t Δ f ty r a = .err .missingMember := fun t ty => (ih t ty).2
    constructor
    · intro bs n h
      rw [missU.eq_def t Δ (f + 1)] at h
      rw [parseU.eq_def t Δ (f + 1)]
      dsimp only at h ⊢
      cases ty with
      | bool => simp at h
      | int => simp at h
      | str => simp at h
      | txt => simp at h
      | opt ty =>
        dsimp only at h ⊢
        cases he : eatNull t.cfg bs with
        | err e => rw [he] at h; simp at h
        | ub => rw [he] at h; simp at h
        | ok x =>
          rw [he] at h
          cases x with
          | some r => simp at h
          | none => simp only [Res.ok_bind, hU _ _ _ _ h, Res.err_bind]
      | arr ty => exact missArr_sound (hU t ty) h
      | map ty => exact missMap_sound (hU t ty) h
      | ref i =>
        dsimp only at h ⊢
        cases hi : Δ i with
        | tup ts ex =>
          rw [hi] at h
          dsimp only at h ⊢
          exact missTup_sound (hU t) h
        | ord ms ex =>
          rw [hi] at h
          dsimp only at h ⊢
          by_cases he : (t.cfg.checked && bs.isEmpty) = true
          · rw [if_pos he] at h; simp at h
          · rw [if_neg he] at h
            simp only [assertEmpty_ok he, Res.ok_bind, missOrd_sound (hU t) h, Res.err_bind]
        | obj ms ex =>
          rw [hi] at h
          dsimp only at h ⊢
          by_cases he : (t.cfg.checked && bs.isEmpty) = true
          · rw [if_pos he] at h; simp at h
          · rw [if_neg he] at h
            simp only [assertEmpty_ok he, Res.ok_bind, missObj_sound (hU t) (hK t) h, Res.err_bind]
        | var alts =>
          rw [hi] at h
          dsimp only at h ⊢
          cases hc : derefEnd t.cfg bs with
          | err e => rw [hc] at h; simp at h
          | ub => rw [hc] at h; simp at h
          | ok c =>
            rw [hc] at h
            simp only [Res.ok_bind] at h ⊢
            cases ha : altOfChar t.cfg Δ alts c with
            | err e => rw [ha] at h; simp at h
            | ub => rw [ha] at h; simp at h
            | ok a =>
              rw [ha] at h
              simp only [Res.ok_bind, hU _ _ _ _ h, Res.err_bind]
        | ivar tag sw alts =>
          rw [hi] at h
          dsimp only at h ⊢
          by_cases he : (t.cfg.checked && bs.isEmpty) = true
          · rw [if_pos he] at h; simp at h
          · rw [if_neg he] at h
            simp only [assertEmpty_ok he, Res.ok_bind]
            cases hx : parseObj t t.exactAll [tag] (parseU t Δ f) (parseK t Δ f) bs with
            | err e => rw [hx] at h; rw [← hx, missObj_sound (hU t) (hK t) h]; rfl
            | ub => rw [hx] at h; rw [← hx, missObj_sound (hU t) (hK t) h]; rfl
            | ok x =>
              rw [hx] at h
              simp only [Res.ok_bind] at h ⊢
              cases ha : altOfTag t.cfg sw alts x.1 with
              | err e => rw [ha] at h; simp at h
              | ub => rw [ha] at h; simp at h
              | ok a =>
                rw [ha] at h
                simp only [Res.ok_bind, hU _ _ _ _ h, Res.err_bind]
    · intro r a n h
      rw [missK.eq_def t Δ (f + 1)] at h
      rw [parseK.eq_def t Δ (f + 1)]
      dsimp only at h ⊢
      cases ty with
      | bool => simp at h
      | int => simp at h
      | str => simp at h
      | txt => simp at h
      | opt ty =>
        dsimp only at h ⊢
        by_cases he : r.null = true
        · rw [if_pos he] at h; simp at h
        · rw [if_neg he] at h ⊢
          simp only [hK _ _ _ _ _ h, Res.err_bind]
      | arr ty =>
        dsimp only at h ⊢
        rw [missArr_sound (hU _ ty) h]; rfl
      | map ty =>
        dsimp only at h ⊢
        rw [missMap_sound (hU _ ty) h]; rfl
      | ref i =>
        dsimp only at h ⊢
        cases hi : Δ i with
        | tup ts ex =>
          rw [hi] at h
          dsimp only at h ⊢
          rw [missTup_sound (hU _) h]; rfl
        | ord ms ex =>
          rw [hi] at h
          dsimp only at h ⊢
          by_cases he : (t.cfg.checked && r.text.isEmpty) = true
          · rw [if_pos he] at h; simp at h
          · rw [if_neg he] at h
            simp only [assertEmpty_ok he, Res.ok_bind, missOrd_sound (hU _) h, Res.err_bind]
        | obj ms ex =>
          rw [hi] at h
          dsimp only at h ⊢
          by_cases he : (t.cfg.checked && r.text.isEmpty) = true
          · rw [if_pos he] at h; simp at h
          · rw [if_neg he] at h
            simp only [assertEmpty_ok he, Res.ok_bind, missObj_sound (hU _) (hK _) h, Res.err_bind]
        | var alts =>
          rw [hi] at h
          dsimp only at h ⊢
          cases ha : altOfRange t.cfg Δ alts r with
          | err e => rw [ha] at h; simp at h
          | ub => rw [ha] at h; simp at h
          | ok x =>
            rw [ha] at h
            simp only [Res.ok_bind, hK _ _ _ _ _ h, Res.err_bind]
        | ivar tag sw alts =>
          rw [hi] at h
          dsimp only at h ⊢
          by_cases he : (t.cfg.checked && r.text.isEmpty) = true
          · rw [if_pos he] at h; simp at h
          · rw [if_neg he] at h
            simp only [assertEmpty_ok he, Res.ok_bind]
            cases hx : parseObj (t.inside r) t.exactAll [tag] (parseU (t.inside r) Δ f) (parseK (t.inside r) Δ f) (r.seen t.cfg a) with
            | err e => rw [hx] at h; rw [← hx, missObj_sound (hU _) (hK _) h]; rfl
            | ub => rw [hx] at h; rw [← hx, missObj_sound (hU _) (hK _) h]; rfl
            | ok x =>
              rw [hx] at h
              simp only [Res.ok_bind] at h ⊢
              cases ha : altOfTag t.cfg sw alts x.1 with
              | err e => rw [ha] at h; simp at h
              | ub => rw [ha] at h; simp at h
              | ok a =>
                rw [ha] at h
                simp only [Res.ok_bind, hU _ _ _ _ h, Res.err_bind]

end Verif
