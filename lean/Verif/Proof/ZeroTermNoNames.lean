import Verif.Proof.ZeroTermSame
import Verif.Proof.ClassSafe
import Verif.Spec.NameFree

/-!
# Zero terminated documents: types without names

Safety and agreement with the `string_view` parser for types made without classes that are stored as objects: also text, quoted literals, tuples,
array classes without indices and variants by kind.
-/

namespace Verif

open Spec

/-! ## Safety -/

/-- Not undefined, and the result is a suffix. -/
def SafeB (s : Bytes) (x : Res Bytes) : Prop := x ≠ .ub ∧ ∀ r, x = .ok r → r <:+ s

theorem SafeB.pure {s r : Bytes} (h : r <:+ s) : SafeB s (.ok r) := ⟨by simp, fun _ he => by cases he; exact h⟩

theorem SafeB.err (s : Bytes) (e : Err) : SafeB s (.err e) := ⟨by simp, fun _ he => by cases he⟩

theorem SafeB.ensure {s : Bytes} {b : Bool} {e : Err} {f : Unit → Res Bytes} (hf : b = true → SafeB s (f ())) :
    SafeB s (Verif.ensure b e >>= f) := by
  cases b with
  | true => exact hf rfl
  | false => exact .err _ _

theorem SafeB.bind {β : Type} {s s' : Bytes} {x : Res Bytes} {f : Bytes → Res (β × Bytes)} (h : SafeB s' x) (hs : s' <:+ s)
    (hf : ∀ r, x = .ok r → r <:+ s → Safe0 s (f r)) : Safe0 s (x >>= f) := by
  cases x with
  | ok a => exact hf a rfl ((h.2 _ rfl).trans hs)
  | err e => exact .err _ _
  | ub => exact absurd rfl h.1

theorem skipStringZ_safe {cfg : Cfg} {s : Bytes} (h : Last cfg s) : Safe0 s (skipStringZ cfg 0 s) := by
  unfold skipStringZ
  split
  · exact .pure _ List.suffix_rfl
  · refine .ensure fun _ => .ensure fun _ => ?_
    have hs := List.tail_suffix s
    refine ⟨fun hk => ?_, fun v r hk => ?_⟩
    · unfold skipStringNqZ at hk
      cases hp : parseNqZ cfg 0 s.tail with
      | ub => exact parseNqZ_ne_ub (h.suffix hs) hp
      | ok a => rw [hp] at hk; simp at hk
      | err e => rw [hp] at hk; simp at hk
    · obtain ⟨_, n, -, -, rfl, -⟩ := skipStringNqZ_ok hk
      exact (List.drop_suffix _ _).trans hs

theorem skipQuoteZ_safe (al : Bool) (s : Bytes) : SafeB s (skipQuoteZ al 0 s) := by
  unfold skipQuoteZ
  split
  · exact .ensure fun _ => .pure (List.tail_suffix s)
  · refine .ensure fun _ => .pure ?_
    split
    · exact List.tail_suffix s
    · exact List.suffix_rfl

theorem eatBoolZ_safe (s : Bytes) : Safe0 s (eatBoolZ 0 s) := by
  unfold eatBoolZ
  split
  · exact .pure _ (List.drop_suffix _ _)
  split
  · exact .pure _ (List.drop_suffix _ _)
  · exact .err _ _

theorem parseLitZ_safe (al : Bool) (l : LitTy) (s : Bytes) : Safe0 s (parseLitZ al l 0 s) := by
  cases l with
  | bool =>
    unfold parseLitZ parseBoolQZ
    refine Safe0.bind ?_ fun _ _ _ hr => .pure _ hr
    refine (skipQuoteZ_safe al s).bind List.suffix_rfl fun b _ hb => ?_
    refine ((eatBoolZ_safe b).weak hb).bind fun r b _ hb => ?_
    refine (skipQuoteZ_safe al b).bind hb fun b _ hb => ?_
    exact .ensure fun _ => .pure _ ((trimChecked_suffix b).trans hb)
  | int t rc =>
    unfold parseLitZ
    dsimp only
    split
    · refine Safe0.bind ?_ fun _ _ _ hr => .pure _ hr
      unfold parseSignedQZ
      refine (skipQuoteZ_safe al s).bind List.suffix_rfl fun b _ hb => ?_
      refine ((validateSignedFirstZ_safe b).weak hb).bind fun sg b _ hb => ?_
      refine ((unsignedNotKnownZ_safe _ _ b).weak hb).bind fun u b _ hb => ?_
      refine (skipQuoteZ_safe al b).bind hb fun b _ hb => ?_
      exact .ensure fun _ => .pure _ ((trimChecked_suffix b).trans hb)
    · refine Safe0.bind ?_ fun _ _ _ hr => .pure _ hr
      unfold parseUnsignedQZ
      refine (skipQuoteZ_safe al s).bind List.suffix_rfl fun b _ hb => ?_
      refine .ensure fun _ => ?_
      refine ((unsignedNotKnownZ_safe _ _ b).weak hb).bind fun u b _ hb => ?_
      refine (skipQuoteZ_safe al b).bind hb fun b _ hb => ?_
      exact .ensure fun _ => .pure _ hb

theorem tupMembersZ_safe {cfg : Cfg} {pU : Ty → Nat → Bytes → Res (Val × Bytes)} {n : Nat} (ts : List Ty)
    (hp : ∀ ty ∈ ts, SafeP cfg n (pU ty)) (s : Bytes) (hl : s.length < n) (h : Last cfg s) : Safe0 s (tupMembersZ pU 0 ts s) := by
  induction ts generalizing s with
  | nil => exact .pure _ List.suffix_rfl
  | cons ty ts ih =>
    unfold tupMembersZ
    refine .ensure fun _ => ?_
    refine (hp ty (by simp) s hl h).bind fun v b _ hb => ?_
    have hm : moveNextChecked b <:+ s := (moveNextChecked_suffix _).trans hb
    refine ((ih (fun x hx => hp x (by simp [hx])) _ (Nat.lt_of_le_of_lt hm.length_le hl) (h.suffix hm)).weak hm).bind fun vs r _ hr => ?_
    exact .pure _ hr

theorem skipBracketedZ_zero {cfg : Cfg} (hck : cfg.checked = true) (br : Brackets) (s : Bytes) {β : Type} (f : Bytes → Res β) :
    (skipBracketedZ br 0 s >>= fun x => f x.2) = (skipBracketed cfg br s >>= fun x => f x.2) := by
  unfold skipBracketedZ skipBracketed skipBracketedChecked
  rw [if_pos hck, beforeZ_zero, behindZ_zero]
  cases s with
  | nil => rfl
  | cons c cs =>
    have h1 : moreZ 0 (c :: cs) = true := by simp [moreZ]
    simp only [h1, if_true, frontZ, List.headD_cons, List.tail_cons, List.append_nil]
    have key : ∀ x : Res (Nat × Bytes),
        ((x >>= fun a => Res.ok (({ s := c :: cs, k := a.2.length, counter := a.1 } : ZRange), a.2)) >>= fun x => f x.2) =
          ((x >>= fun a => Res.ok (({ text := List.take ((c :: cs).length - a.2.length) (c :: cs), counter := a.1 } : Range), a.2)) >>=
            fun x => f x.2) := by
      intro x; cases x <;> rfl
    exact key _

theorem arrCleanupZ_safe (exact : Bool) (s : Bytes) : SafeB s (arrCleanupZ exact 0 s) := by
  unfold arrCleanupZ
  split
  · exact .ensure fun _ => .pure (((trimChecked_suffix _).trans (List.tail_suffix _)).trans (trimChecked_suffix s))
  · have h := skipBracketed_safe (cfg := {}) rfl arrBr s
    have e := skipBracketedZ_zero (cfg := {}) rfl arrBr s (fun b => Res.ok b)
    change SafeB s (skipBracketedZ arrBr 0 s >>= fun x => Res.ok x.2)
    rw [e]
    cases hx : skipBracketed {} arrBr s with
    | ok a => exact .pure (h.2 a.1 a.2 hx)
    | err e => exact .err _ _
    | ub => exact absurd hx h.1

theorem parseTupZ_safe {cfg : Cfg} {pU : Ty → Nat → Bytes → Res (Val × Bytes)} {n : Nat} (exact : Bool) (ts : List Ty)
    (hp : ∀ ty ∈ ts, SafeP cfg n (pU ty)) : SafeP cfg (n + 1) (parseTupZ exact ts pU) := by
  intro s hl h
  unfold parseTupZ
  dsimp only
  refine .ensure fun hz => ?_
  have h1 := atZ_tail hz
  have h2 := (trimChecked_suffix s).length_le
  have h3 := ((trimChecked_suffix (moveNextChecked (trimChecked s).tail)).trans (moveNextChecked_suffix _)).length_le
  have hs : trimChecked (moveNextChecked (trimChecked s).tail) <:+ s :=
    (((trimChecked_suffix _).trans (moveNextChecked_suffix _)).trans (List.tail_suffix _)).trans (trimChecked_suffix s)
  refine ((tupMembersZ_safe ts hp _ (by omega) (h.suffix hs)).weak hs).bind fun vs b _ hb => ?_
  exact (arrCleanupZ_safe exact b).bind hb fun r _ hr => .pure _ hr

theorem ordMembersZ_safe {cfg : Cfg} {pU : Ty → Nat → Bytes → Res (Val × Bytes)} {n : Nat} (ms : List (Option Nat × Ty))
    (hi : ∀ m ∈ ms, m.1 = none) (hp : ∀ m ∈ ms, SafeP cfg n (pU m.2)) (idx : Nat) (s : Bytes) (hl : s.length < n) (h : Last cfg s) :
    Safe0 s (ordMembersZ cfg pU 0 idx ms s) := by
  induction ms generalizing s idx with
  | nil => exact .pure _ List.suffix_rfl
  | cons m ms ih =>
    obtain ⟨w, ty⟩ := m
    obtain rfl : w = none := hi (w, ty) (by simp)
    have hm : moveNextChecked s <:+ s := moveNextChecked_suffix _
    unfold ordMembersZ
    dsimp only
    cases moreZ 0 (moveNextChecked s) with
    | false => exact .err _ _
    | true =>
      simp only [ensure_true, Res.ok_bind]
      have h1 : Safe0 s (if frontZ (moveNextChecked s) = chRBrack then
          if ty.isOpt = true then .ok (.none, moveNextChecked s) else .err .missingMember
        else pU ty 0 (moveNextChecked s) : Res (Val × Bytes)) := by
        split
        · split
          · exact .pure _ hm
          · exact .err _ _
        · exact (hp (none, ty) (by simp) _ (Nat.lt_of_le_of_lt hm.length_le hl) (h.suffix hm)).weak hm
      refine h1.bind fun v b _ hb => ?_
      refine ((ih (fun x hx => hi x (by simp [hx])) (fun x hx => hp x (by simp [hx])) _ b
        (Nat.lt_of_le_of_lt hb.length_le hl) (h.suffix hb)).weak hb).bind fun vs r _ hr => ?_
      exact .pure _ hr

theorem parseOrdZ_safe {cfg : Cfg} {pU : Ty → Nat → Bytes → Res (Val × Bytes)} {n : Nat} (exact : Bool)
    (ms : List (Option Nat × Ty)) (hi : ∀ m ∈ ms, m.1 = none) (hp : ∀ m ∈ ms, SafeP cfg n (pU m.2)) :
    SafeP cfg (n + 1) (parseOrdZ cfg exact ms pU) := by
  intro s hl h
  unfold parseOrdZ
  dsimp only
  refine .ensure fun hz => ?_
  have h1 := atZ_tail hz
  have h2 := (trimChecked_suffix s).length_le
  have h3 := (trimChecked_suffix (trimChecked s).tail).length_le
  have hs : trimChecked (trimChecked s).tail <:+ s :=
    ((trimChecked_suffix _).trans (List.tail_suffix _)).trans (trimChecked_suffix s)
  refine ((ordMembersZ_safe ms hi hp 0 _ (by omega) (h.suffix hs)).weak hs).bind fun vs b _ hb => ?_
  exact (arrCleanupZ_safe exact b).bind hb fun r _ hr => .pure _ hr

theorem parseUZ_safeN {t : TCfg} (hck : t.cfg.checked = true) {lit : LitTy → Prop} {S : Nat → Prop} {rk : Nat → Nat} {R : Nat} {Δ : Env}
    (hΔ : NameFreeEnv lit S rk R Δ) (f : Nat) (ty : Ty) (hty : NameFree lit S ty) (hr : RankOk rk R ty) (s : Bytes)
    (hf : TyRank rk ty + (R + 1) * s.length < f) (h : Last t.cfg s) : Safe0 s (parseUZ t Δ f ty 0 s) := by
  induction f generalizing ty s with
  | zero => omega
  | succ f ih =>
    have below : ∀ (ty : Ty) (n : Nat), NameFree lit S ty → RankOk rk R ty → (R + 1) * n ≤ f →
        SafeP t.cfg n (parseUZ t Δ f ty) := by
      intro ty n h1 h2 h3 s hs hl
      have := Nat.mul_le_mul_left (R + 1) (Nat.succ_le_of_lt hs)
      rw [Nat.mul_succ] at this
      have := h2.le
      exact ih ty h1 h2 s (by omega) hl
    rw [parseUZ.eq_def]
    cases ty with
    | bool => exact (parseBoolZ_safe s).bind fun v r _ hr => .pure _ hr
    | int ity rc => exact (parseIntZ_safe ity rc s).bind fun v r _ hr => .pure _ hr
    | str ah =>
      obtain ⟨h1, h2⟩ := parseStrZ_safe hck ah h
      exact Safe0.bind ⟨h1, fun v r he => (h2 v r he).1⟩ fun v r _ hr => .pure _ hr
    | opt ty =>
      simp only [RankOk, TyRank] at hr hf
      obtain ⟨h1, h2⟩ := eatNullZ_safe s
      cases hn : eatNullZ 0 s with
      | ub => exact absurd hn h1
      | err e => exact .err _ _
      | ok o =>
        cases o with
        | some r => exact .pure _ (h2 r hn)
        | none => exact (ih ty hty hr.2 s (by omega) h).bind fun v r _ hr => .pure _ hr
    | arr ty =>
      simp only [RankOk, TyRank] at hr hf
      exact parseArrZ_safe (below ty s.length hty hr (by omega)) s (by omega) h
    | map ty =>
      simp only [RankOk, TyRank] at hr hf
      exact parseMapZ_safe hck (below ty s.length hty hr (by omega)) s (by omega) h
    | txt k =>
      cases k with
      | rawStr ah => exact (skipStringZ_safe h).bind fun v r _ hr => .pure _ hr
      | custom c =>
        cases c with
        | str =>
          change Safe0 s ((skipStringZ t.cfg 0 s >>= fun x => Res.ok (x.1.text, x.2)) >>= fun x =>
            customStart t.cfg x.1 >>= fun _ => Res.ok (Val.txt x.1, x.2))
          refine Safe0.bind ((skipStringZ_safe h).bind fun v r _ hr => .pure _ hr) fun x r _ hr => ?_
          dsimp only
          unfold customStart
          rw [hck, assertWeak_checked]
          exact .ensure fun _ => .pure _ hr
        | lit => exact hty.elim
        | any => exact hty.elim
      | quoted al l => exact (parseLitZ_safe al l s).bind fun v r _ hr => .pure _ hr
      | date => exact hty.elim
      | raw => exact hty.elim
      | real d fm => exact hty.elim
    | ref i =>
      simp only [RankOk, TyRank] at hr hf
      have hi := (hΔ i hty).2
      dsimp only
      cases hd : Δ i with
      | obj ms ex => rw [hd] at hi; exact hi.elim
      | ivar tag sw alts => rw [hd] at hi; exact hi.elim
      | tup ts ex =>
        rw [hd] at hi
        exact parseTupZ_safe _ ts (fun ty hm => below ty s.length (hi ty hm).1 (hi ty hm).2 (by omega)) s (by omega) h
      | ord ms ex =>
        rw [hd] at hi
        dsimp only
        refine .ensure fun _ => ?_
        refine (parseOrdZ_safe _ ms (fun m hm => (hi m hm).1)
          (fun m hm => below _ s.length (hi m hm).2.1 (hi m hm).2.2 (by omega)) s (by omega) h).bind fun v r _ hr => ?_
        exact .pure _ ((trimChecked_suffix r).trans hr)
      | var alts =>
        rw [hd] at hi
        dsimp only
        obtain ⟨h1, h2⟩ := altOfChar_safe hck Δ alts (frontZ s)
        cases ha : altOfChar t.cfg Δ alts (frontZ s) with
        | ub => exact absurd ha h1
        | err e => exact .err _ _
        | ok a =>
          have ha2 := hi _ (h2 a ha).1
          exact (ih a.2 ha2.1 ha2.2.2 s (by omega) h).bind fun v r _ hr => .pure _ hr

theorem fromJsonZ_safeN {t : TCfg} (hck : t.cfg.checked = true) {lit : LitTy → Prop} {S : Nat → Prop} {rk : Nat → Nat} {R : Nat} {Δ : Env}
    (hΔ : NameFreeEnv lit S rk R Δ) (ty : Ty) (hty : NameFree lit S ty) (hr : RankOk rk R ty) (s : Bytes) (f : Nat)
    (hf : (R + 1) * (s.length + 1) ≤ f) (h : Last t.cfg (if s.getLast? = some 0 then s.dropLast else s)) :
    fromJsonZ t Δ f ty s ≠ .ub := by
  unfold fromJsonZ
  cases s.isEmpty with
  | true => simp
  | false =>
    simp only [Bool.not_false, ensure_true, Res.ok_bind]
    have hl : (if s.getLast? = some 0 then s.dropLast else s).length ≤ s.length := by split <;> simp
    generalize (if s.getLast? = some 0 then s.dropLast else s) = b at h hl
    have h1 := Nat.mul_le_mul_left (R + 1) hl
    rw [Nat.mul_succ] at hf
    refine Res.bind_ne_ub (parseUZ_safeN hck hΔ f ty hty hr b (by have := hr.le; omega) h).1 fun a _ => ?_
    split
    · cases emptyZ 0 (trimChecked a.2) <;> simp
    · simp

/-! ## The same as for a `string_view` -/

theorem skipStringZ_same {cfg : Cfg} (hck : cfg.checked = true) {s : Bytes} (h : Last cfg s) (hn : NF s) :
    (skipStringZ cfg 0 s >>= fun x => Res.ok (x.1.text, x.2)) = (skipString cfg false s >>= fun x => Res.ok (x.1.text, x.2)) := by
  unfold skipStringZ skipString
  rw [emptyZ_nf hn]
  cases s with
  | nil => rfl
  | cons c cs =>
    simp only [List.isEmpty_cons, Bool.false_eq_true, if_false, frontZ, List.headD_cons, List.tail_cons, hck,
      assertWeak_checked, moreZ_zero]
    cases (c == chQuote) with
    | false => rfl
    | true =>
      simp only [ensure_true, Res.ok_bind]
      cases (!cs.isEmpty) with
      | false => rfl
      | true =>
        simp only [ensure_true, Res.ok_bind]
        have hcs : cs <:+ c :: cs := List.suffix_cons c cs
        have hp := parseNqZ_same hck (h.suffix hcs) (hn.suffix hcs)
        cases hk : parseNq cfg cs with
        | ub => simp only [skipStringNq, skipStringNqZ, hp, hk]; rfl
        | err e => simp only [skipStringNq, skipStringNqZ, hp, hk]; rfl
        | ok a =>
          obtain ⟨sl, n⟩ := a
          rw [hk] at hp
          have hz : skipStringNqZ cfg 0 cs = .ok ({ s := cs, k := cs.length - n, counter := sl }, cs.drop (n + 1)) := by
            rw [skipStringNqZ, hp]; rfl
          obtain ⟨sl', n', hn', hl, -, ht, hc, hb⟩ := skipStringNqZ_ok hz
          have := parseNq_result hck hk
          rw [this] at hn'
          simp only [Option.some.injEq, Prod.mk.injEq] at hn'
          obtain ⟨rfl, rfl⟩ := hn'
          have hv : skipStringNq cfg cs = .ok ({ text := cs.take n, counter := sl }, cs.drop (n + 1)) := by
            rw [skipStringNq, hk]; rfl
          rw [hz, hv]
          simp only [Res.ok_bind, ht]

theorem skipQuoteZ_same {cfg : Cfg} (hck : cfg.checked = true) (al : Bool) (s : Bytes) : skipQuoteZ al 0 s = skipQuote cfg al s := by
  unfold skipQuoteZ skipQuote
  rw [hck]
  cases s with
  | nil => cases al <;> rfl
  | cons c cs =>
    simp only [assertWeak_checked, atZ, moreZ_zero, headIs, List.isEmpty_cons, Bool.not_false, Bool.true_and, frontZ, List.headD_cons,
      deref_cons, Res.ok_bind, Bool.false_eq_true, if_false]
    rfl

theorem eatBoolZ_same {cfg : Cfg} (hck : cfg.checked = true) (s : Bytes) : eatBoolZ 0 s = eatBool cfg s := by
  unfold eatBoolZ eatBool
  simp only [hck, if_true, beforeZ_zero]

theorem parseLitZ_same {cfg : Cfg} (hck : cfg.checked = true) (al : Bool) (l : LitTy)
    (hl : NotUnsigned l) (s : Bytes) : parseLitZ al l 0 s = parseLit cfg al l s := by
  cases l with
  | bool =>
    unfold parseLitZ parseLit parseBoolQZ parseBoolQ
    simp only [skipQuoteZ_same hck, eatBoolZ_same hck, trim, hck, if_true, Res.ok_bind, assertWeak_checked, endOfItemZ_zero]
  | int t rc =>
    have hs : t.signed = true := hl
    unfold parseLitZ parseLit parseSignedQZ parseSignedQ
    simp only [hs, skipQuoteZ_same hck, validateSignedFirstZ_same hck, unsignedNotKnownZ_same hck, trim, hck, if_true, Res.ok_bind,
      assertWeak_checked, endOfItemZ_zero]

theorem tupMembersZ_same {cfg : Cfg} (hck : cfg.checked = true) {pZ : Ty → Nat → Bytes → Res (Val × Bytes)}
    {p : Ty → Bytes → Res (Val × Bytes)} {n : Nat} (ts : List Ty) (hs : ∀ ty ∈ ts, SafeP cfg n (pZ ty))
    (hp : ∀ ty ∈ ts, AgrP cfg n (pZ ty) (p ty)) (s : Bytes) (hl : s.length < n) (h : Last cfg s) (hn : NF s) :
    Agr (tupMembersZ pZ 0 ts s) (tupMembers cfg p ts s) := by
  induction ts generalizing s with
  | nil => exact .rfl
  | cons ty ts ih =>
    unfold tupMembersZ tupMembers
    rw [hck, assertWeak_checked, moreZ_zero]
    refine .ensure fun _ => ?_
    refine (hp ty (by simp) s hl h hn).bind fun x hx => ?_
    have hb : x.2 <:+ s := (hs ty (by simp) s hl h).2 _ _ hx
    have hm : moveNextChecked x.2 <:+ s := (moveNextChecked_suffix _).trans hb
    simp only [moveNext, hck, if_true, Res.ok_bind]
    refine (ih (fun a ha => hs a (by simp [ha])) (fun a ha => hp a (by simp [ha])) _ (Nat.lt_of_le_of_lt hm.length_le hl)
      (h.suffix hm) (hn.suffix hm)).bind fun y _ => ?_
    exact .rfl

/-- The end of an array class for a `string_view`. -/
theorem arrCleanupZ_same {cfg : Cfg} (hck : cfg.checked = true) (ex : Bool) (v : Val) (s : Bytes) :
    Agr (arrCleanupZ ex 0 s >>= fun r => Res.ok (v, r))
      (if ex = true then
        trim cfg s >>= fun b => derefEnd cfg b >>= fun c => assertWeak cfg.checked (c == chRBrack) .unknownMember >>= fun _ =>
          trim cfg b.tail >>= fun b => Res.ok (v, b)
      else skipBracketed cfg arrBr s >>= fun x => Res.ok (v, x.2)) := by
  unfold arrCleanupZ
  cases ex with
  | false =>
    simp only [Bool.false_eq_true, if_false]
    have e := skipBracketedZ_zero hck arrBr s (fun b => Res.ok (v, b))
    rw [← e]
    refine .of_eq ?_
    cases skipBracketedZ arrBr 0 s <;> rfl
  | true =>
    simp only [if_true, trim, hck, Res.ok_bind, assertWeak_checked]
    cases ht : trimChecked s with
    | nil =>
      cases hq : cfg.endQuote with
      | false => simp only [derefEnd, hq]; exact .ub _
      | true =>
        simp only [derefEnd, hq, if_true, Res.ok_bind]
        exact .err _ _
    | cons c cs =>
      simp only [derefEnd_cons, Res.ok_bind, frontZ, List.headD_cons]
      cases (c == chRBrack) with
      | false => exact .err _ _
      | true => exact .rfl

theorem atZ_same (c : UInt8) (s : Bytes) : atZ c 0 s = headIs (· == c) s := by
  cases s <;> simp [atZ, moreZ, frontZ, headIs]

theorem parseTupZ_same {cfg : Cfg} (hck : cfg.checked = true) (ex : Bool) {pZ : Ty → Nat → Bytes → Res (Val × Bytes)}
    {p : Ty → Bytes → Res (Val × Bytes)} {n : Nat} (ts : List Ty) (hs : ∀ ty ∈ ts, SafeP cfg n (pZ ty))
    (hp : ∀ ty ∈ ts, AgrP cfg n (pZ ty) (p ty)) : AgrP cfg (n + 1) (parseTupZ ex ts pZ) (parseTup cfg ex ts p) := by
  intro s hl h hn
  unfold parseTupZ parseTup
  have e1 : ∀ b, trim cfg b = .ok (trimChecked b) := fun b => by rw [trim, if_pos hck]
  have e2 : ∀ b, moveNext cfg b = .ok (moveNextChecked b) := fun b => by rw [moveNext, if_pos hck]
  rw [e1, Res.ok_bind, hck, assertWeak_checked]
  dsimp only
  rw [atZ_same]
  refine .ensure fun hz => ?_
  rw [← atZ_same] at hz
  have h1 := atZ_tail hz
  have h2 := (trimChecked_suffix s).length_le
  have h3 := ((trimChecked_suffix (moveNextChecked (trimChecked s).tail)).trans (moveNextChecked_suffix _)).length_le
  have hm : trimChecked (moveNextChecked (trimChecked s).tail) <:+ s :=
    (((trimChecked_suffix _).trans (moveNextChecked_suffix _)).trans (List.tail_suffix _)).trans (trimChecked_suffix s)
  rw [e2, Res.ok_bind, e1, Res.ok_bind]
  refine (tupMembersZ_same hck ts hs hp _ (by omega) (h.suffix hm) (hn.suffix hm)).bind fun x _ => ?_
  have := arrCleanupZ_same hck ex (.cls x.1) x.2
  rw [hck] at this
  exact this

theorem ordMembersZ_same {cfg : Cfg} (hck : cfg.checked = true) {pZ : Ty → Nat → Bytes → Res (Val × Bytes)}
    {p : Ty → Bytes → Res (Val × Bytes)} {n : Nat} (ms : List (Option Nat × Ty)) (hi : ∀ m ∈ ms, m.1 = none)
    (hs : ∀ m ∈ ms, SafeP cfg n (pZ m.2)) (hp : ∀ m ∈ ms, AgrP cfg n (pZ m.2) (p m.2)) (idx : Nat) (s : Bytes)
    (hl : s.length < n) (h : Last cfg s) (hn : NF s) : Agr (ordMembersZ cfg pZ 0 idx ms s) (ordMembers cfg p idx ms s) := by
  induction ms generalizing s idx with
  | nil => exact .rfl
  | cons m ms ih =>
    obtain ⟨w, ty⟩ := m
    obtain rfl : w = none := hi (w, ty) (by simp)
    have hm : moveNextChecked s <:+ s := moveNextChecked_suffix _
    have e2 : ∀ b, moveNext cfg b = .ok (moveNextChecked b) := fun b => by rw [moveNext, if_pos hck]
    unfold ordMembersZ ordMembers
    dsimp only
    rw [e2, Res.ok_bind, hck, assertWeak_checked, moreZ_zero]
    cases hb : moveNextChecked s with
    | nil => exact .err _ _
    | cons c cs =>
      rw [hb] at hm
      have hcl : (c :: cs).length < n := Nat.lt_of_le_of_lt hm.length_le hl
      simp only [List.isEmpty_cons, Bool.not_false, ensure_true, Res.ok_bind, derefEnd_cons, frontZ, List.headD_cons]
      have h1 : Agr (if c = chRBrack then if ty.isOpt = true then .ok (.none, c :: cs) else .err .missingMember
          else pZ ty 0 (c :: cs) : Res (Val × Bytes))
          (if c = chRBrack then if ty.isOpt = true then .ok (.none, c :: cs) else .err .missingMember
          else p ty (c :: cs) : Res (Val × Bytes)) :=
        .ite (fun _ => .rfl) fun _ => hp (none, ty) (by simp) _ hcl (h.suffix hm) (hn.suffix hm)
      refine h1.bind fun x hx => ?_
      have hr : x.2 <:+ s := by
        by_cases hc : c = chRBrack
        · rw [if_pos hc] at hx
          cases ho : ty.isOpt with
          | true => rw [ho] at hx; cases hx; exact hm
          | false => rw [ho] at hx; cases hx
        · rw [if_neg hc] at hx
          exact ((hs (none, ty) (by simp) _ hcl (h.suffix hm)).2 _ _ hx).trans hm
      refine (ih (fun x hx => hi x (by simp [hx])) (fun x hx => hs x (by simp [hx])) (fun x hx => hp x (by simp [hx])) _ x.2
        (Nat.lt_of_le_of_lt hr.length_le hl) (h.suffix hr) (hn.suffix hr)).bind fun y _ => ?_
      exact .rfl

theorem parseOrdZ_same {cfg : Cfg} (hck : cfg.checked = true) (ex : Bool) {pZ : Ty → Nat → Bytes → Res (Val × Bytes)}
    {p : Ty → Bytes → Res (Val × Bytes)} {n : Nat} (ms : List (Option Nat × Ty)) (hi : ∀ m ∈ ms, m.1 = none)
    (hs : ∀ m ∈ ms, SafeP cfg n (pZ m.2)) (hp : ∀ m ∈ ms, AgrP cfg n (pZ m.2) (p m.2)) :
    AgrP cfg (n + 1) (parseOrdZ cfg ex ms pZ) (parseOrd cfg ex ms p) := by
  intro s hl h hn
  unfold parseOrdZ parseOrd
  have e1 : ∀ b, trim cfg b = .ok (trimChecked b) := fun b => by rw [trim, if_pos hck]
  rw [e1, Res.ok_bind, hck, assertWeak_checked]
  dsimp only
  rw [atZ_same]
  refine .ensure fun hz => ?_
  rw [← atZ_same] at hz
  have h1 := atZ_tail hz
  have h2 := (trimChecked_suffix s).length_le
  have h3 := (trimChecked_suffix (trimChecked s).tail).length_le
  have hm : trimChecked (trimChecked s).tail <:+ s :=
    ((trimChecked_suffix _).trans (List.tail_suffix _)).trans (trimChecked_suffix s)
  rw [e1, Res.ok_bind]
  refine (ordMembersZ_same hck ms hi hs hp 0 _ (by omega) (h.suffix hm) (hn.suffix hm)).bind fun x _ => ?_
  have := arrCleanupZ_same hck ex (.cls x.1) x.2
  rw [hck] at this
  exact this

theorem parseUZ_sameN {t : TCfg} (hck : t.cfg.checked = true) (hq : t.cfg.endQuote = false) {S : Nat → Prop} {rk : Nat → Nat} {R : Nat}
    {Δ : Env} (hΔ : NameFreeEnv NotUnsigned S rk R Δ) (f : Nat) (ty : Ty) (hty : NameFree NotUnsigned S ty) (hr : RankOk rk R ty)
    (s : Bytes) (hf : TyRank rk ty + (R + 1) * s.length < f) (h : Last t.cfg s) (hn : NF s) :
    Agr (parseUZ t Δ f ty 0 s) (parseU t Δ f ty s) := by
  induction f generalizing ty s with
  | zero => omega
  | succ f ih =>
    have mul : ∀ {x y : Nat}, x < y → (R + 1) * y ≤ f → R + (R + 1) * x < f := by
      intro x y hxy hy
      have := Nat.mul_le_mul_left (R + 1) (Nat.succ_le_of_lt hxy)
      rw [Nat.mul_succ] at this
      omega
    have below : ∀ (ty : Ty) (n : Nat), NameFree NotUnsigned S ty → RankOk rk R ty → (R + 1) * n ≤ f →
        SafeP t.cfg n (parseUZ t Δ f ty) := by
      intro ty n h1 h2 h3 s hs hl
      have := mul hs h3
      have := h2.le
      exact parseUZ_safeN hck hΔ f ty h1 h2 s (by omega) hl
    have same : ∀ (ty : Ty) (n : Nat), NameFree NotUnsigned S ty → RankOk rk R ty → (R + 1) * n ≤ f →
        AgrP t.cfg n (parseUZ t Δ f ty) (parseU t Δ f ty) := by
      intro ty n h1 h2 h3 s hs hl hn
      have := mul hs h3
      have := h2.le
      exact ih ty h1 h2 s (by omega) hl hn
    cases ty with
    | bool =>
      rw [parseUZ, parseU, parseBoolZ_same hck]
      exact .rfl
    | int ity rc =>
      rw [parseUZ, parseU]
      exact (parseIntZ_same hck ity rc s).bind fun _ _ => .rfl
    | str ah =>
      rw [parseUZ, parseU]
      exact (parseStrZ_same hck ah h hn).bind fun _ _ => .rfl
    | opt ty =>
      simp only [RankOk, TyRank] at hr hf
      rw [parseUZ, parseU, eatNullZ_same hck]
      refine Agr.rfl.bind fun o _ => ?_
      cases o with
      | some r => exact .rfl
      | none => exact (ih ty hty hr.2 s (by omega) h hn).bind fun _ _ => .rfl
    | arr ty =>
      simp only [RankOk, TyRank] at hr hf
      rw [parseUZ, parseU]
      exact parseArrZ_same hck (below ty s.length hty hr (by omega)) (same ty s.length hty hr (by omega)) s (by omega) h hn
    | map ty =>
      simp only [RankOk, TyRank] at hr hf
      rw [parseUZ, parseU]
      exact parseMapZ_same hck (below ty s.length hty hr (by omega)) (same ty s.length hty hr (by omega)) s (by omega) h hn
    | txt k =>
      rw [parseUZ, parseU]
      have hstr := skipStringZ_same hck h hn
      cases k with
      | rawStr ah =>
        have key : ∀ {α : Type} (x : Res (α × Bytes)) (g : α → Bytes), (x >>= fun y => Res.ok (Val.txt (g y.1), y.2)) =
            ((x >>= fun y => Res.ok (g y.1, y.2)) >>= fun z => Res.ok (Val.txt z.1, z.2)) := by
          intro α x g; cases x <;> rfl
        refine .of_eq ?_
        change (skipStringZ t.cfg 0 s >>= fun y => Res.ok (Val.txt y.1.text, y.2)) =
          (skipString t.cfg false s >>= fun y => Res.ok (Val.txt y.1.text, y.2))
        rw [key _ (fun r : ZRange => r.text), key _ (fun r : Range => r.text), hstr]
      | custom c =>
        cases c with
        | str =>
          refine .of_eq ?_
          have e : (skipStringZ t.cfg 0 s >>= fun x => Res.ok (x.1.text, x.2)) = customText t.cfg .str s := hstr
          change ((skipStringZ t.cfg 0 s >>= fun x => Res.ok (x.1.text, x.2)) >>= fun x =>
            customStart t.cfg x.1 >>= fun _ => Res.ok (Val.txt x.1, x.2)) =
            ((customText t.cfg .str s >>= fun x => customStart t.cfg x.1 >>= fun _ => Res.ok (x.1, x.2)) >>= fun y =>
              Res.ok (Val.txt y.1, y.2))
          rw [e]
          cases customText t.cfg .str s with
          | ub => rfl
          | err e => rfl
          | ok a => simp only [Res.ok_bind]; cases customStart t.cfg a.1 <;> rfl
        | lit => exact hty.elim
        | any => exact hty.elim
      | quoted al l =>
        change Agr (parseLitZ al l 0 s >>= fun x => Res.ok (Val.lit x.1, x.2)) (parseLit t.cfg al l s >>= fun x => Res.ok (Val.lit x.1, x.2))
        rw [parseLitZ_same hck al l hty]
        exact .rfl
      | date => exact hty.elim
      | raw => exact hty.elim
      | real d fm => exact hty.elim
    | ref i =>
      simp only [RankOk, TyRank] at hr hf
      have hi := (hΔ i hty).2
      rw [parseUZ, parseU]
      cases hd : Δ i with
      | obj ms ex => rw [hd] at hi; exact hi.elim
      | ivar tag sw alts => rw [hd] at hi; exact hi.elim
      | tup ts ex =>
        rw [hd] at hi
        exact parseTupZ_same hck _ ts (fun ty hm => below ty s.length (hi ty hm).1 (hi ty hm).2 (by omega))
          (fun ty hm => same ty s.length (hi ty hm).1 (hi ty hm).2 (by omega)) s (by omega) h hn
      | ord ms ex =>
        rw [hd] at hi
        dsimp only
        rw [hck, assertWeak_checked, moreZ_zero]
        refine .ensure fun _ => ?_
        refine (parseOrdZ_same hck _ ms (fun m hm => (hi m hm).1) (fun m hm => below _ s.length (hi m hm).2.1 (hi m hm).2.2 (by omega))
          (fun m hm => same _ s.length (hi m hm).2.1 (hi m hm).2.2 (by omega)) s (by omega) h hn).bind fun x _ => ?_
        exact .rfl
      | var alts =>
        rw [hd] at hi
        dsimp only
        cases s with
        | nil => simp only [derefEnd, hq]; exact .ub _
        | cons c cs =>
          simp only [derefEnd_cons, Res.ok_bind, frontZ, List.headD_cons]
          refine Agr.rfl.bind fun a ha => ?_
          have ha2 := ((altOfChar_safe hck Δ alts c).2 a ha).1
          have ha3 := hi _ ha2
          exact (ih a.2 ha3.1 ha3.2.2 _ (by omega) h hn).bind fun _ _ => .rfl

theorem fromJsonZ_sameN {t : TCfg} (hck : t.cfg.checked = true) (hq : t.cfg.endQuote = false) {S : Nat → Prop} {rk : Nat → Nat} {R : Nat}
    {Δ : Env} (hΔ : NameFreeEnv NotUnsigned S rk R Δ) (ty : Ty) (hty : NameFree NotUnsigned S ty) (hr : RankOk rk R ty) (s : Bytes)
    (f : Nat) (hf : (R + 1) * (s.length + 1) ≤ f) (h : Last t.cfg s) (hn : NF s) :
    Agr (fromJsonZ t Δ f ty s) (fromJson t Δ f ty s) := by
  unfold fromJsonZ fromJson
  refine .ensure fun _ => ?_
  have h0 : s.getLast? ≠ some 0 := fun hc => hn 0 (List.mem_of_getLast? hc) rfl
  rw [if_neg h0]
  rw [Nat.mul_succ] at hf
  dsimp only
  refine (parseUZ_sameN hck hq hΔ f ty hty hr s (by have := hr.le; omega) h hn).bind fun a ha => ?_
  obtain ⟨v, r⟩ := a
  have hr : r <:+ s := (parseUZ_safeN hck hΔ f ty hty hr s (by have := hr.le; omega) h).2 _ _ ha
  simp only [trim, hck, if_true, Res.ok_bind, emptyZ_nf (hn.suffix ((trimChecked_suffix r).trans hr))]
  exact .rfl

end Verif
