import Verif.Proof.ZeroTermSafe
import Verif.Proof.TypedBasic

/-!
# Zero terminated documents: same result as for a `string_view`, for types without classes
-/

namespace Verif

/-- Where the second is defined, both are the same value or both are errors. -/
def Agr {α : Type} (a b : Res α) : Prop :=
  match b with
  | .ub => True
  | .ok y => a = .ok y
  | .err _ => ∃ e, a = .err e

theorem Agr.rfl {α : Type} {a : Res α} : Agr a a := by
  cases a with
  | ok x => exact Eq.refl _
  | err e => exact ⟨e, Eq.refl _⟩
  | ub => trivial

theorem Agr.of_eq {α : Type} {a b : Res α} (h : a = b) : Agr a b := h ▸ .rfl

theorem Agr.bind {α β : Type} {a b : Res α} {f g : α → Res β} (h : Agr a b) (hf : ∀ x, a = .ok x → Agr (f x) (g x)) :
    Agr (a >>= f) (b >>= g) := by
  cases b with
  | ub => trivial
  | ok y =>
    have h : a = .ok y := h
    subst h
    exact hf y (Eq.refl _)
  | err e =>
    obtain ⟨e', rfl⟩ := h
    exact ⟨e', Eq.refl _⟩

theorem Agr.ite {α : Type} {c : Prop} [Decidable c] {a a' b b' : Res α} (h : c → Agr a a') (h' : ¬ c → Agr b b') :
    Agr (if c then a else b) (if c then a' else b') := by
  split
  · exact h ‹_›
  · exact h' ‹_›

theorem Agr.dite {α : Type} {c : Prop} [Decidable c] {a a' : c → Res α} {b b' : ¬ c → Res α} (h : ∀ x, Agr (a x) (a' x))
    (h' : ∀ x, Agr (b x) (b' x)) : Agr (if h : c then a h else b h) (if h : c then a' h else b' h) := by
  split
  · exact h _
  · exact h' _

theorem Agr.ub {α : Type} (a : Res α) : Agr a .ub := trivial

theorem Agr.err {α : Type} (e e' : Err) : Agr (.err e : Res α) (.err e') := ⟨e, Eq.refl _⟩

theorem Agr.ensure {α : Type} {b : Bool} {e e' : Err} {f g : Unit → Res α} (hf : b = true → Agr (f ()) (g ())) :
    Agr (Verif.ensure b e >>= f) (Verif.ensure b e' >>= g) := by
  cases b with
  | true => exact hf (Eq.refl _)
  | false => exact .err _ _

/-! ## Bytes after the buffer of a string -/

/-- Where the first is defined, the second is the same with `z` after the rest. -/
def Fr {α : Type} (z : Bytes) (x y : Res (α × Bytes)) : Prop :=
  match x with
  | .ub => True
  | .ok (a, b) => y = .ok (a, b ++ z)
  | .err e => y = .err e

theorem Fr.bind {α β : Type} {z : Bytes} {x y : Res (α × Bytes)} {f g : α × Bytes → Res (β × Bytes)} (h : Fr z x y)
    (hf : ∀ a b, x = .ok (a, b) → Fr z (f (a, b)) (g (a, b ++ z))) : Fr z (x >>= f) (y >>= g) := by
  match x, h with
  | .ub, _ => trivial
  | .ok (a, b), h =>
    have h : y = .ok (a, b ++ z) := h
    subst h
    exact hf a b rfl
  | .err e, h =>
    have h : y = .err e := h
    subst h
    exact Eq.refl _

theorem Fr.same {α β : Type} {z : Bytes} {x : Res α} {f g : α → Res (β × Bytes)}
    (hf : ∀ a, x = .ok a → Fr z (f a) (g a)) : Fr z (x >>= f) (x >>= g) := by
  cases x with
  | ub => trivial
  | ok a => exact hf a rfl
  | err e => exact Eq.refl _

theorem Fr.ensure {α : Type} {z : Bytes} {b b' : Bool} {e : Err} {f g : Unit → Res (α × Bytes)} (hb : b' = b)
    (hf : b = true → Fr z (f ()) (g ())) : Fr z (Verif.ensure b e >>= f) (Verif.ensure b' e >>= g) := by
  subst hb
  cases b' with
  | true => exact hf rfl
  | false => exact Eq.refl _

theorem Fr.pure {α : Type} {z : Bytes} (a : α) (b : Bytes) : Fr z (.ok (a, b)) (.ok (a, b ++ z)) := Eq.refl _

section Frame

variable {cfg : Cfg} (hck : cfg.checked = true) (z : Bytes)
include hck

theorem fourNibbles_frame (bs : Bytes) : Fr z (fourNibbles cfg bs) (fourNibbles cfg (bs ++ z)) := by
  match bs with
  | a :: b :: c :: d :: t => simp [fourNibbles, byteFromNibbles, hck, Fr]
  | [] => trivial
  | [a] => trivial
  | [a, b] => simp [fourNibbles, byteFromNibbles, hck, Fr]
  | [a, b, c] => simp [fourNibbles, byteFromNibbles, hck, Fr]

theorem decodeUtf16_frame (tl : Nat) (u : UInt8) (bs : Bytes) :
    Fr z (decodeUtf16 cfg tl (u :: bs)) (decodeUtf16 cfg (tl + z.length) (u :: bs ++ z)) := by
  unfold decodeUtf16
  simp only [hck, assertWeak_checked]
  refine .ensure (by simp only [List.length_append, decide_eq_decide]; omega) fun _ => ?_
  refine (fourNibbles_frame hck z bs).bind fun cp b _ => ?_
  dsimp only
  split
  · exact .pure _ _
  split
  · cases b with
    | nil =>
      have e1 : decide (tl + z.length + 5 ≤ (([] ++ z : Bytes).drop 1).length) = false :=
        decide_eq_false (by rw [List.nil_append, List.length_drop]; omega)
      rw [e1]
      exact Eq.refl _
    | cons x b =>
      simp only [List.cons_append, List.drop_succ_cons, List.drop_zero]
      cases b with
      | nil =>
        have e1 : decide (tl + z.length + 5 ≤ ([] ++ z : Bytes).length) = false :=
          decide_eq_false (by rw [List.nil_append]; omega)
        rw [e1]
        exact Eq.refl _
      | cons y b =>
        have e1 : decide (tl + z.length + 5 ≤ (y :: b ++ z : Bytes).length) = decide (tl + 5 ≤ (y :: b : Bytes).length) := by
          rw [List.length_append, decide_eq_decide]; omega
        refine .ensure (by rw [e1]; rfl) fun _ => ?_
        refine (fourNibbles_frame hck z b).bind fun tr c _ => ?_
        exact .pure _ _
  · exact .pure _ _

theorem decodeEscape_frame (ah : Bool) (tl : Nat) (bs : Bytes) :
    Fr z (decodeEscape cfg ah tl bs) (decodeEscape cfg ah (tl + z.length) (bs ++ z)) := by
  cases bs with
  | nil => trivial
  | cons c cs =>
    unfold decodeEscape
    simp only [List.cons_append, hck, assertWeak_checked]
    refine .same fun _ _ => ?_
    split
    · exact .pure _ _
    split
    · exact .pure _ _
    split
    · exact .pure _ _
    split
    · exact .pure _ _
    split
    · exact .pure _ _
    split
    · exact decodeUtf16_frame hck z tl c cs
    split
    · exact .pure _ _
    · exact .same fun _ _ => .pure _ _

omit hck in
theorem plainRun_frame {bs : Bytes} (h : (plainRun bs).2 ≠ []) :
    plainRun (bs ++ z) = ((plainRun bs).1, (plainRun bs).2 ++ z) := by
  induction bs with
  | nil => exact absurd rfl h
  | cons c cs ih =>
    rw [List.cons_append, plainRun, plainRun]
    rw [plainRun] at h
    split
    · rfl
    · rename_i hc
      rw [if_neg hc] at h
      rw [ih h]

/-- The same, for a pair with the rest in front. -/
def Fr' {α : Type} (z : Bytes) (x y : Res (Bytes × α)) : Prop :=
  match x with
  | .ub => True
  | .ok (b, a) => y = .ok (b ++ z, a)
  | .err e => y = .err e

theorem strStep_frame (ah hq : Bool) (cap tl : Nat) (buf out : Bytes) :
    Fr' z (strStep cfg ah hq cap tl buf out) (strStep cfg ah hq cap (tl + z.length) (buf ++ z) out) := by
  unfold strStep
  cases hr : (plainRun buf).2 with
  | nil =>
    cases hp : plainRun buf with
    | mk run b =>
      rw [hp] at hr
      subst hr
      trivial
  | cons c b =>
    have hf := plainRun_frame z (bs := buf) (by rw [hr]; simp)
    cases hp : plainRun buf with
    | mk run b' =>
      rw [hp] at hr hf
      dsimp only at hr hf
      subst hr
      rw [hf]
      simp only [List.cons_append, deref_cons, Res.ok_bind, hck, assertWeak_checked, List.tail_cons]
      have hend : ∀ b : Bytes, (!hq || decide (tl + z.length < (b ++ z).length)) = (!hq || decide (tl < b.length)) := by
        intro b
        rw [List.length_append]
        congr 1
        simp
      cases decide (run.length ≤ cap - out.length) with
      | false => exact Eq.refl _
      | true =>
        simp only [ensure_true, Res.ok_bind]
        cases put cap out run with
        | ub => trivial
        | err e => exact Eq.refl _
        | ok o =>
          simp only [Res.ok_bind]
          split
          · have hd := decodeEscape_frame hck z ah tl b
            cases hx : decodeEscape cfg ah tl b with
            | ub => trivial
            | err e =>
              rw [hx] at hd
              have hd : decodeEscape cfg ah (tl + z.length) (b ++ z) = .err e := hd
              rw [hd]
              exact Eq.refl _
            | ok a =>
              obtain ⟨w, b2⟩ := a
              rw [hx] at hd
              have hd : decodeEscape cfg ah (tl + z.length) (b ++ z) = .ok (w, b2 ++ z) := hd
              rw [hd]
              simp only [Res.ok_bind]
              cases put cap o w with
              | ub => trivial
              | err e => exact Eq.refl _
              | ok o2 =>
                simp only [Res.ok_bind, hend]
                cases (!hq || decide (tl < b2.length)) <;> exact Eq.refl _
          · have h2 := hend (c :: b)
            simp only [List.cons_append] at h2
            simp only [h2]
            cases hb : (!hq || decide (tl < (c :: b).length)) with
            | false => exact Eq.refl _
            | true =>
              simp only [ensure_true, Res.ok_bind, h2, hb]
              exact Eq.refl _

theorem strLoop_frame (ah hq : Bool) (cap tl : Nat) (buf out : Bytes)
    (h : strLoop cfg ah hq cap tl buf out ≠ .ub) :
    strLoop cfg ah hq cap (tl + z.length) (buf ++ z) out = strLoop cfg ah hq cap tl buf out := by
  induction hn : buf.length using Nat.strongRecOn generalizing buf out with
  | _ n ih =>
    subst hn
    have hm : strMore cfg (tl + z.length) (buf ++ z) = strMore cfg tl buf := by
      unfold strMore
      rw [if_pos hck, if_pos hck]
      by_cases hl : tl < buf.length
      · rw [if_pos hl, if_pos (by rw [List.length_append]; omega)]
        cases buf with
        | nil => simp at hl
        | cons c cs => rfl
      · rw [if_neg hl, if_neg (by rw [List.length_append]; omega)]
    have hcase : strMore cfg tl buf = .ok false ∨ strMore cfg tl buf = .ok true := by
      unfold strMore
      rw [if_pos hck]
      split
      · cases (buf.head? != some chQuote) <;> simp
      · simp
    rcases hcase with hf | ht
    · rw [strLoop_stop hf, strLoop_stop (hm.trans hf)]
    · have hs := strStep_frame hck z ah hq cap tl buf out
      cases hx : strStep cfg ah hq cap tl buf out with
      | ub =>
        exfalso
        apply h
        conv => lhs; rw [strLoop]
        split
        · rfl
        · simp_all
        · simp_all
        · split <;> simp_all
      | err e =>
        rw [hx] at hs
        rw [strLoop_err ht hx, strLoop_err (hm.trans ht) hs]
      | ok a =>
        obtain ⟨b, o⟩ := a
        rw [hx] at hs
        rw [strLoop_step ht hx] at h ⊢
        rw [strLoop_step (hm.trans ht) hs]
        exact ih b.length (strStep_lt hx ht) b o h rfl

theorem parseStdString_frame (ah : Bool) (text c : Bytes) (counter : Nat)
    (h : parseStdString cfg ah text counter (chQuote :: c) ≠ .ub) :
    parseStdString cfg ah text counter (chQuote :: c ++ z) = parseStdString cfg ah text counter (chQuote :: c) := by
  have key : ∀ (hq : Bool) (buf : Bytes),
      (if 1 < counter - 1 ∧ counter < 2 ^ 63 then
        if counter - 1 ≤ text.length + 1 ∧ counter - 1 ≤ buf.length then
          strLoop cfg ah hq (text.length + 1) (chQuote :: c).length (buf.drop (counter - 1)) (buf.take (counter - 1))
        else .ub
      else strLoop cfg ah hq (text.length + 1) (chQuote :: c).length buf []) ≠ .ub →
      (if 1 < counter - 1 ∧ counter < 2 ^ 63 then
        if counter - 1 ≤ text.length + 1 ∧ counter - 1 ≤ (buf ++ z).length then
          strLoop cfg ah hq (text.length + 1) (chQuote :: c ++ z).length ((buf ++ z).drop (counter - 1))
            ((buf ++ z).take (counter - 1))
        else .ub
      else strLoop cfg ah hq (text.length + 1) (chQuote :: c ++ z).length (buf ++ z) []) =
      (if 1 < counter - 1 ∧ counter < 2 ^ 63 then
        if counter - 1 ≤ text.length + 1 ∧ counter - 1 ≤ buf.length then
          strLoop cfg ah hq (text.length + 1) (chQuote :: c).length (buf.drop (counter - 1)) (buf.take (counter - 1))
        else .ub
      else strLoop cfg ah hq (text.length + 1) (chQuote :: c).length buf []) := by
    intro hq buf h
    rw [List.length_append (as := chQuote :: c)]
    by_cases h1 : 1 < counter - 1 ∧ counter < 2 ^ 63
    · rw [if_pos h1] at h
      rw [if_pos h1, if_pos h1]
      by_cases h2 : counter - 1 ≤ text.length + 1 ∧ counter - 1 ≤ buf.length
      · rw [if_pos h2] at h
        rw [if_pos h2, if_pos ⟨h2.1, by rw [List.length_append]; omega⟩, List.drop_append_of_le_length h2.2,
          List.take_append_of_le_length h2.2]
        exact strLoop_frame hck z ah _ _ _ _ _ h
      · rw [if_neg h2] at h; exact absurd rfl h
    · rw [if_neg h1] at h
      rw [if_neg h1, if_neg h1]
      exact strLoop_frame hck z ah _ _ _ _ _ h
  unfold parseStdString at h ⊢
  have hd : ∃ d t, text ++ chQuote :: c = d :: t := by cases text <;> exact ⟨_, _, rfl⟩
  obtain ⟨d, t, hdt⟩ := hd
  have hdz : text ++ (chQuote :: c ++ z) = d :: (t ++ z) := by rw [← List.append_assoc, hdt]; rfl
  rw [hdz, hdt]
  rw [hdt] at h
  simp only [deref_cons, Res.ok_bind, List.tail_cons] at h ⊢
  cases hq : (d == chQuote) with
  | true => rw [hq] at h; exact key true t h
  | false => rw [hq] at h; exact key false (d :: t) h

end Frame

/-! ## Scalars -/

/-- No NUL in the text. -/
def NF (s : Bytes) : Prop := ∀ c ∈ s, c ≠ 0

theorem NF.suffix {s r : Bytes} (h : NF s) (hr : r <:+ s) : NF r := fun c hc => h c (hr.subset hc)

theorem emptyZ_nf {s : Bytes} (h : NF s) : emptyZ 0 s = s.isEmpty := by
  cases s with
  | nil => rfl
  | cons c cs => simp [emptyZ, moreZ, frontZ, h c (by simp)]

theorem nqScanZ_same {off slow : Nat} {s : Bytes} (h : s.getLast? ≠ some chBslash) (hn : NF s) :
    nqScanZ off slow s = match nqScan off slow s with | some r => .ok r | none => .err .invalidString := by
  fun_induction nqScan off slow s with
  | case1 => rfl
  | case2 => rw [nqScanZ.eq_def]; simp
  | case3 => simp at h
  | case4 off slow d cs _ ih =>
    rw [nqScanZ.eq_def]
    simp only
    rw [if_neg (by decide), if_neg (by decide), if_pos trivial]
    refine ih ?_ fun c hc => hn c (by simp [hc])
    cases cs with
    | nil => simp
    | cons y ys => simpa [List.getLast?_cons_cons] using h
  | case5 off slow c cs hq hb ih =>
    rw [nqScanZ.eq_def]
    simp only
    rw [if_neg hq, if_neg (hn c (by simp)), if_neg hb]
    refine ih ?_ fun c hc => hn c (by simp [hc])
    cases cs with
    | nil => simp
    | cons y ys => simpa [List.getLast?_cons_cons] using h

theorem parseNqZ_same {cfg : Cfg} (hck : cfg.checked = true) {s : Bytes} (h : Last cfg s) (hn : NF s) :
    parseNqZ cfg 0 s = parseNq cfg s := by
  unfold parseNqZ parseNq parseNqCheck
  rw [if_pos hck, beforeZ_zero]
  split
  · exact nqScanExclZ_zero _ _ _
  · rename_i hx
    have hd := List.drop_suffix (preSkip s) s
    exact nqScanZ_same ((h.suffix hd).resolve_left hx) (hn.suffix hd)

theorem parseStrZ_same {cfg : Cfg} (hck : cfg.checked = true) (ah : Bool) {s : Bytes} (h : Last cfg s) (hn : NF s) :
    Agr (parseStrZ cfg ah 0 s) (parseStr cfg ah s) := by
  unfold parseStrZ parseStr
  rw [emptyZ_nf hn]
  refine .ensure fun he => ?_
  cases s with
  | nil => simp at he
  | cons c cs =>
    unfold skipStringZ skipString
    rw [emptyZ_nf hn]
    simp only [List.isEmpty_cons, Bool.false_eq_true, if_false, frontZ, List.headD_cons, List.tail_cons, hck,
      assertWeak_checked, moreZ_zero]
    cases (c == chQuote) with
    | false => exact .err _ _
    | true =>
      simp only [ensure_true, Res.ok_bind]
      cases (!cs.isEmpty) with
      | false => exact .err _ _
      | true =>
        simp only [ensure_true, Res.ok_bind]
        have hcs : cs <:+ c :: cs := List.suffix_cons c cs
        have hp := parseNqZ_same hck (h.suffix hcs) (hn.suffix hcs)
        cases hk : parseNq cfg cs with
        | ub => simp only [skipStringNq, hk]; exact .ub _
        | err e => simp only [skipStringNq, skipStringNqZ, hp, hk]; exact .err _ _
        | ok a =>
          obtain ⟨sl, n⟩ := a
          rw [hk] at hp
          have hz : skipStringNqZ cfg 0 cs = .ok ({ s := cs, k := cs.length - n, counter := sl }, cs.drop (n + 1)) := by
            rw [skipStringNqZ, hp]; rfl
          obtain ⟨sl', n', hn', hl, -, ht, hc, hb⟩ := skipStringNqZ_ok hz
          have := parseNq_result hck hk
          rw [this] at hn'
          simp only [Option.some.injEq, Prod.mk.injEq] at hn'
          obtain ⟨rfl, rfl⟩ := hn'
          have hv : skipStringNq cfg cs = .ok ({ text := cs.take n, counter := sl }, cs.drop (n + 1)) := by
            rw [skipStringNq, hk]; rfl
          rw [hz, hv]
          simp only [Res.ok_bind, parseStrRangeZ, ht, hb, List.length_take, Nat.min_eq_left (Nat.le_of_lt hl)]
          obtain ⟨-, hq, -⟩ := nqScan_result this
          rw [Nat.sub_zero] at hq
          obtain ⟨-, -, hd⟩ := split_at_quote hq
          rw [List.drop_succ_cons, hd]
          refine Agr.bind ?_ fun x _ => .rfl
          unfold parseStrRange
          dsimp only
          split
          · by_cases hu : parseStdString cfg ah (cs.take n) sl (chQuote :: cs.drop (n + 1)) = .ub
            · rw [hu]; exact .ub _
            · exact .of_eq (parseStdString_frame hck [0] ah _ _ _ hu)
          · exact .rfl

theorem endOfItemZ_zero (s : Bytes) : endOfItemZ 0 s = endOfItem s := by
  cases s <;> simp [endOfItemZ, endOfItem, moreZ, frontZ]

theorem parseBoolZ_same {cfg : Cfg} (hck : cfg.checked = true) (s : Bytes) : parseBoolZ 0 s = parseBool cfg s := by
  unfold parseBoolZ parseBool eatBoolZ eatBool
  simp only [hck, if_true, beforeZ_zero, trim, Res.ok_bind, assertWeak_checked, endOfItemZ_zero]

theorem eatNullZ_same {cfg : Cfg} (hck : cfg.checked = true) (s : Bytes) : eatNullZ 0 s = eatNull cfg s := by
  unfold eatNullZ eatNull
  have : (!moreZ 0 s || isTokenAfterValue (frontZ s)) = (s.isEmpty || headIs isTokenAfterValue s) := by
    cases s <;> simp [moreZ, frontZ, headIs]
  rw [this]
  simp only [hck, if_true, beforeZ_zero, endOfItemZ_zero]

theorem unsignedNotKnownZ_same {cfg : Cfg} (hck : cfg.checked = true) (bits : Nat) (rc : Bool) (s : Bytes) :
    unsignedNotKnownZ bits rc 0 s = unsignedNotKnown cfg bits rc s := by
  unfold unsignedNotKnownZ unsignedNotKnown
  rw [moreZ_zero, notKnownValZ_zero, hck, assertWeak_checked]

theorem validateSignedFirstZ_same {cfg : Cfg} (hck : cfg.checked = true) (s : Bytes) :
    validateSignedFirstZ 0 s = validateSignedFirst cfg s := by
  unfold validateSignedFirstZ validateSignedFirst
  rw [moreZ_zero, hck, assertWeak_checked]
  cases s with
  | nil => rfl
  | cons c cs =>
    simp only [List.isEmpty_cons, Bool.not_false, ensure_true, Res.ok_bind, deref_cons, frontZ, List.headD_cons,
      List.tail_cons, if_true]
    have : (!moreZ 0 cs || !isDigit (cs.headD 0)) = (match cs with | [] => true | d :: _ => !isDigit d) := by
      cases cs <;> simp [moreZ]
    rw [this]
    rfl

theorem parseIntZ_same {cfg : Cfg} (hck : cfg.checked = true) (t : IntTy) (rc : Bool) (s : Bytes) :
    Agr (parseIntZ t rc 0 s) (parseInt cfg t rc s) := by
  unfold parseIntZ parseInt
  split
  · unfold parseSignedZ parseSigned
    rw [validateSignedFirstZ_same hck]
    cases s with
    | nil => rw [hck]; simp only [assertWeak_checked]; unfold validateSignedFirst; rw [hck]; exact .err _ _
    | cons c cs =>
      simp only [hck, List.isEmpty_cons, Bool.not_false, assertWeak_checked, ensure_true, Res.ok_bind,
        unsignedNotKnownZ_same hck, trim, if_true, endOfItemZ_zero]
      exact .rfl
  · unfold parseUnsignedZ parseUnsigned
    cases s with
    | nil => rw [hck]; exact .err _ _
    | cons c cs =>
      simp only [hck, List.isEmpty_cons, Bool.not_false, assertWeak_checked, ensure_true, Res.ok_bind,
        unsignedNotKnownZ_same hck, whenChecked, if_true, endOfItemZ_zero, deref_cons, frontZ, List.headD_cons]
      exact .rfl

/-! ## Arrays and maps -/

/-- Two parsers that agree on texts shorter than `n`. -/
def AgrP (cfg : Cfg) (n : Nat) (pZ : Nat → Bytes → Res (Val × Bytes)) (p : Bytes → Res (Val × Bytes)) : Prop :=
  ∀ s, s.length < n → Last cfg s → NF s → Agr (pZ 0 s) (p s)

theorem arrLoopZ_same {cfg : Cfg} (hck : cfg.checked = true) {pZ : Nat → Bytes → Res (Val × Bytes)}
    {p : Bytes → Res (Val × Bytes)} {n : Nat} (hs : SafeP cfg n pZ) (hp : AgrP cfg n pZ p) (s : Bytes)
    (hsn : s.length < n) (h : Last cfg s) (hn : NF s) :
    Agr (arrLoopZ pZ 0 s) (arrLoop cfg p s) := by
  induction hl : s.length using Nat.strongRecOn generalizing s with
  | _ m ih =>
    subst hl
    rw [arrLoopZ, arrLoop]
    simp only [hck, assertWeak_checked, moreZ_zero, trim, if_true, moveNext, Res.ok_bind]
    refine .ensure fun _ => ?_
    refine (hp s hsn h hn).bind fun a ha => ?_
    obtain ⟨v, b⟩ := a
    have hbs : b <:+ s := (hs s hsn h).2 _ _ ha
    dsimp only
    have h1 : (!(trimChecked b).isEmpty && (frontZ (trimChecked b) == chComma || frontZ (trimChecked b) == chRBrack)) =
        headIs (fun c => c == chComma || c == chRBrack) (trimChecked b) := by
      cases trimChecked b <;> simp [frontZ, headIs]
    rw [h1]
    refine .ensure fun _ => ?_
    refine .ensure fun hne => ?_
    have hm : moveNextChecked (trimChecked b) <:+ s := ((moveNextChecked_suffix _).trans (trimChecked_suffix b)).trans hbs
    cases hb : moveNextChecked (trimChecked b) with
    | nil => rw [hb] at hne; simp at hne
    | cons c cs =>
      rw [hb] at hm
      simp only [frontZ, List.headD_cons, deref_cons, Res.ok_bind]
      refine .ite (fun _ => .rfl) fun _ => .dite (fun hlt => ?_) fun _ => .ub _
      · exact (ih _ hlt _ (Nat.lt_trans hlt hsn) (h.suffix hm) (hn.suffix hm) rfl).bind fun _ _ => .rfl

theorem parseArrZ_same {cfg : Cfg} (hck : cfg.checked = true) {pZ : Nat → Bytes → Res (Val × Bytes)}
    {p : Bytes → Res (Val × Bytes)} {n : Nat} (hs : SafeP cfg n pZ) (hp : AgrP cfg n pZ p) :
    AgrP cfg (n + 1) (parseArrZ pZ) (parseArr cfg p) := by
  intro s hl h hn
  unfold parseArrZ parseArr
  simp only [trim, hck, if_true, Res.ok_bind, assertWeak_checked]
  have h1 : atZ chLBrack 0 (trimChecked s) = headIs (· == chLBrack) (trimChecked s) := by
    cases trimChecked s <;> simp [atZ, moreZ, frontZ, headIs]
  rw [h1]
  refine .ensure fun hz => ?_
  rw [← h1] at hz
  have h1 := atZ_tail hz
  have h2 := (trimChecked_suffix s).length_le
  have h3 := (trimChecked_suffix (trimChecked s).tail).length_le
  have hm : trimChecked (trimChecked s).tail <:+ s :=
    ((trimChecked_suffix _).trans (List.tail_suffix _)).trans (trimChecked_suffix s)
  cases hu : trimUnchecked (trimChecked s).tail with
  | ub =>
    rw [trimUncheckedEnd_of_ub hu, (trimUnchecked_ub_iff _).1 hu]
    cases hq : cfg.endQuote with
    | false => exact .ub _
    | true =>
      have e1 : arrLoopZ pZ 0 [] = .err .unexpectedEndOfData := by rw [arrLoopZ]; rfl
      have e2 : arrLoop cfg p [] = .err .unexpectedEndOfData := by rw [arrLoop.eq_def, hck]; rfl
      rw [e1]
      simp only [if_true, Res.ok_bind, derefEnd, hq, frontZ, List.headD_nil, e2]
      exact .rfl
  | err e =>
    exfalso
    cases ht : trimChecked (trimChecked s).tail with
    | nil => rw [(trimUnchecked_ub_iff _).2 ht] at hu; cases hu
    | cons c cs => rw [trimUnchecked_of_checked ht] at hu; cases hu
  | ok b =>
    have hb := trimUnchecked_eq_ok hu
    rw [trimUncheckedEnd_of_ok hu]
    rw [hb] at hm h3 ⊢
    cases b with
    | nil => rw [(trimUnchecked_ub_iff _).2 hb] at hu; cases hu
    | cons c cs =>
      simp only [Res.ok_bind, derefEnd_cons, frontZ, List.headD_cons]
      refine .ite (fun _ => .rfl) fun _ => ?_
      · exact (arrLoopZ_same hck hs hp _ (by omega) (h.suffix hm) (hn.suffix hm)).bind fun _ _ => .rfl

theorem trimEndOfNameZ_same {cfg : Cfg} (hck : cfg.checked = true) (s : Bytes) :
    trimEndOfNameZ 0 s = trimEndOfName cfg s := by
  unfold trimEndOfNameZ trimEndOfName
  simp only [trim, hck, if_true, Res.ok_bind, whenChecked, moreZ_zero]
  cases trimChecked s with
  | nil => rfl
  | cons c cs =>
    simp only [List.isEmpty_cons, Bool.not_false, ensure_true, Res.ok_bind, frontZ, List.headD_cons, headIs]

theorem mapLoopZ_same {cfg : Cfg} (hck : cfg.checked = true) {pZ : Nat → Bytes → Res (Val × Bytes)}
    {p : Bytes → Res (Val × Bytes)} {n : Nat} (hs : SafeP cfg n pZ) (hp : AgrP cfg n pZ p) (s : Bytes)
    (hsn : s.length < n) (h : Last cfg s) (hn : NF s) :
    Agr (mapLoopZ cfg pZ 0 s) (mapLoop cfg p s) := by
  induction hl : s.length using Nat.strongRecOn generalizing s with
  | _ m ih =>
    subst hl
    rw [mapLoopZ, mapLoop]
    simp only [hck, assertWeak_checked, moreZ_zero, if_true, moveNext, Res.ok_bind, trimEndOfNameZ_same hck]
    refine .ensure fun _ => ?_
    refine (parseStrZ_same hck true h hn).bind fun a ha => ?_
    obtain ⟨ky, b⟩ := a
    have hbs : b <:+ s := ((parseStrZ_safe hck true h).2 _ _ ha).1
    dsimp only
    refine Agr.rfl.bind fun c hc => ?_
    rw [← trimEndOfNameZ_same hck] at hc
    have hcs : c <:+ s := ((trimEndOfNameZ_safe b).2 _ hc).trans hbs
    have hcl : c.length < n := Nat.lt_of_le_of_lt hcs.length_le hsn
    refine (hp c hcl (h.suffix hcs) (hn.suffix hcs)).bind fun a ha => ?_
    obtain ⟨v, d⟩ := a
    have hds : d <:+ s := ((hs c hcl (h.suffix hcs)).2 _ _ ha).trans hcs
    dsimp only
    refine .ensure fun hne => ?_
    have hm : moveNextChecked d <:+ s := (moveNextChecked_suffix _).trans hds
    cases hb : moveNextChecked d with
    | nil => rw [hb] at hne; simp at hne
    | cons x xs =>
      rw [hb] at hm
      simp only [frontZ, List.headD_cons, deref_cons, Res.ok_bind]
      refine .ite (fun _ => .rfl) fun _ => .dite (fun hlt => ?_) fun _ => .ub _
      · exact (ih _ hlt _ (Nat.lt_trans hlt hsn) (h.suffix hm) (hn.suffix hm) rfl).bind fun _ _ => .rfl

theorem parseMapZ_same {cfg : Cfg} (hck : cfg.checked = true) {pZ : Nat → Bytes → Res (Val × Bytes)}
    {p : Bytes → Res (Val × Bytes)} {n : Nat} (hs : SafeP cfg n pZ) (hp : AgrP cfg n pZ p) :
    AgrP cfg (n + 1) (parseMapZ cfg pZ) (parseMap cfg p) := by
  intro s hl h hn
  unfold parseMapZ parseMap
  simp only [trim, hck, if_true, Res.ok_bind, assertWeak_checked]
  have h1 : atZ chLBrace 0 s = headIs (· == chLBrace) s := by
    cases s <;> simp [atZ, moreZ, frontZ, headIs]
  rw [h1]
  refine .ensure fun hz => ?_
  rw [← h1] at hz
  have h1 := atZ_tail hz
  have h3 := (trimChecked_suffix s.tail).length_le
  have hm : trimChecked s.tail <:+ s := (trimChecked_suffix _).trans (List.tail_suffix _)
  rw [emptyZ_nf (hn.suffix hm)]
  refine .ensure fun hne => ?_
  cases hb : trimChecked s.tail with
  | nil => rw [hb] at hne; simp at hne
  | cons c cs =>
    rw [hb] at hm h3
    simp only [Res.ok_bind, deref_cons, frontZ, List.headD_cons]
    refine .ite (fun _ => .rfl) fun _ => ?_
    · exact (mapLoopZ_same hck hs hp _ (by omega) (h.suffix hm) (hn.suffix hm)).bind fun _ _ => .rfl

end Verif
