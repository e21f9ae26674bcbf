import Verif.Model.ZeroTerm
import Verif.Proof.StrSafe
import Verif.Proof.SkipSafe
import Verif.Proof.SkipAgree

/-!
# Zero terminated documents: no read past the terminator, for types without classes
-/

namespace Verif

@[simp] theorem beforeZ_zero (s : Bytes) : beforeZ 0 s = s := by simp [beforeZ]
@[simp] theorem behindZ_zero (s : Bytes) : behindZ 0 s = [] := by simp [behindZ]
theorem moreZ_zero (s : Bytes) : moreZ 0 s = !s.isEmpty := by cases s <;> simp [moreZ]

/-- Not undefined, and the rest is a suffix. -/
def Safe0 {α : Type} (s : Bytes) (x : Res (α × Bytes)) : Prop := x ≠ .ub ∧ ∀ v r, x = .ok (v, r) → r <:+ s

theorem Safe0.pure {α : Type} {s r : Bytes} (v : α) (h : r <:+ s) : Safe0 s (.ok (v, r)) :=
  ⟨by simp, fun _ _ he => by cases he; exact h⟩

theorem Safe0.err {α : Type} (s : Bytes) (e : Err) : Safe0 s (.err e : Res (α × Bytes)) :=
  ⟨by simp, fun _ _ he => by cases he⟩

theorem Safe0.weak {α : Type} {s r : Bytes} {x : Res (α × Bytes)} (h : Safe0 r x) (hr : r <:+ s) : Safe0 s x :=
  ⟨h.1, fun v r' he => (h.2 v r' he).trans hr⟩

theorem Safe0.bind {α β : Type} {s : Bytes} {x : Res (α × Bytes)} {f : α × Bytes → Res (β × Bytes)} (h : Safe0 s x)
    (hf : ∀ v r, x = .ok (v, r) → r <:+ s → Safe0 s (f (v, r))) : Safe0 s (x >>= f) := by
  cases x with
  | ok a => exact hf a.1 a.2 rfl (h.2 _ _ rfl)
  | err e => exact .err _ _
  | ub => exact absurd rfl h.1

theorem Safe0.ensure {α : Type} {s : Bytes} {b : Bool} {e : Err} {f : Unit → Res (α × Bytes)}
    (hf : b = true → Safe0 s (f ())) : Safe0 s (Verif.ensure b e >>= f) := by
  cases b with
  | true => exact hf rfl
  | false => exact .err _ _

/-- The text does not end in a backslash, if that matters. -/
def Last (cfg : Cfg) (s : Bytes) : Prop := cfg.exclSpecial = true ∨ s.getLast? ≠ some chBslash

theorem Last.suffix {cfg : Cfg} {s r : Bytes} (h : Last cfg s) (hr : r <:+ s) : Last cfg r := by
  refine h.imp id fun h => ?_
  obtain ⟨t, rfl⟩ := hr
  cases r with
  | nil => simp
  | cons c r => simpa [List.getLast?_append] using h

/-! ## Strings -/

theorem nqScanZ_ne_ub {off slow : Nat} {s : Bytes} (h : s.getLast? ≠ some chBslash) : nqScanZ off slow s ≠ .ub := by
  fun_induction nqScanZ off slow s with
  | case1 => simp
  | case2 => simp
  | case3 => simp
  | case4 => simp at h
  | case5 off slow d cs _ _ ih =>
    apply ih
    cases cs with
    | nil => simp
    | cons y ys => simpa [List.getLast?_cons_cons] using h
  | case6 off slow c cs hq h0 hb ih =>
    apply ih
    cases cs with
    | nil => simp
    | cons y ys => simpa [List.getLast?_cons_cons] using h

theorem nqScan_of_Z {off slow : Nat} {s : Bytes} {r : Nat × Nat} (h : nqScanZ off slow s = .ok r) :
    nqScan off slow s = some r := by
  fun_induction nqScanZ off slow s <;> rw [nqScan.eq_def] <;> simp_all

theorem nqScanExclZ_zero (off slow : Nat) (s : Bytes) : nqScanExclZ 0 off slow s = nqScanExcl off slow s := by
  fun_induction nqScanExcl off slow s <;> rw [nqScanExclZ.eq_def] <;> simp_all <;> omega

theorem parseNqZ_ne_ub {cfg : Cfg} {s : Bytes} (h : Last cfg s) : parseNqZ cfg 0 s ≠ .ub := by
  unfold parseNqZ
  split
  · rw [nqScanExclZ_zero]; exact nqScanExcl_ne_ub _ _ _
  · rename_i hx
    exact nqScanZ_ne_ub ((h.suffix (List.drop_suffix _ s)).resolve_left hx)

theorem parseNqZ_result {cfg : Cfg} {s : Bytes} {sl n : Nat} (h : parseNqZ cfg 0 s = .ok (sl, n)) :
    nqScan 0 npos s = some (sl, n) := by
  unfold parseNqZ at h
  split at h
  · rw [nqScanExclZ_zero] at h; exact nqScan_of_excl h
  · rw [beforeZ_zero] at h
    rw [← nqScan_preSkip]
    exact nqScan_of_Z h

theorem skipStringNqZ_ok {cfg : Cfg} {s : Bytes} {r : ZRange} {b : Bytes} (h : skipStringNqZ cfg 0 s = .ok (r, b)) :
    ∃ sl n, nqScan 0 npos s = some (sl, n) ∧ n < s.length ∧ b = s.drop (n + 1) ∧ r.text = s.take n ∧ r.counter = sl ∧
      behindZ r.k r.s = chQuote :: s.drop (n + 1) := by
  unfold skipStringNqZ at h
  simp only [Res.bind_eq_ok] at h
  obtain ⟨⟨sl, n⟩, h1, h2⟩ := h
  have hn := parseNqZ_result h1
  obtain ⟨-, hq, -⟩ := nqScan_result hn
  rw [Nat.sub_zero] at hq
  obtain ⟨hl, -⟩ := List.getElem?_eq_some_iff.1 hq
  obtain ⟨-, -, hd⟩ := split_at_quote hq
  simp only [Res.ok.injEq, Prod.mk.injEq] at h2
  obtain ⟨rfl, rfl⟩ := h2
  refine ⟨sl, n, hn, hl, rfl, ?_, rfl, ?_⟩
  · rw [ZRange.text, beforeZ, show s.length - (s.length - n) = n by omega]
  · rw [behindZ, show s.length - (s.length - n) = n by omega, hd]

theorem parseStrRangeZ_ne_ub {cfg : Cfg} (hck : cfg.checked = true) (ah : Bool) {s : Bytes} {r : ZRange} {b : Bytes}
    (h : skipStringNqZ cfg 0 s = .ok (r, b)) : parseStrRangeZ cfg ah r ≠ .ub := by
  obtain ⟨sl, n, hn, hl, -, ht, hc, hb⟩ := skipStringNqZ_ok h
  obtain ⟨-, -, hs⟩ := nqScan_result hn
  unfold parseStrRangeZ parseStrRange
  rw [hb]
  split
  · refine parseStdString_checked hck ah _ _ _ fun hlt => ?_
    dsimp only at hlt ⊢
    rw [hc] at hlt ⊢
    rw [ht, List.length_take]
    rcases hs with rfl | hs
    · unfold npos at hlt; omega
    · omega
  · simp

theorem parseStrZ_safe {cfg : Cfg} (hck : cfg.checked = true) (ah : Bool) {s : Bytes} (h : Last cfg s) :
    parseStrZ cfg ah 0 s ≠ .ub ∧ ∀ v r, parseStrZ cfg ah 0 s = .ok (v, r) → r <:+ s ∧ r.length < s.length := by
  unfold parseStrZ
  cases he : emptyZ 0 s with
  | true => simp
  | false =>
    simp only [Bool.not_false, ensure_true, Res.ok_bind]
    unfold skipStringZ
    rw [he]
    cases hq : (frontZ s == chQuote) with
    | false => simp
    | true =>
      simp only [Bool.false_eq_true, if_false, ensure_true, Res.ok_bind]
      cases hm : moreZ 0 s.tail with
      | false => simp
      | true =>
        simp only [ensure_true, Res.ok_bind]
        have hs : s ≠ [] := by rintro rfl; simp [moreZ] at hm
        have hlen : s.tail.length < s.length := by cases s <;> simp_all
        cases hk : skipStringNqZ cfg 0 s.tail with
        | ub =>
          exfalso
          unfold skipStringNqZ at hk
          cases hp : parseNqZ cfg 0 s.tail with
          | ub => exact parseNqZ_ne_ub (h.suffix (List.tail_suffix s)) hp
          | ok a => rw [hp] at hk; simp at hk
          | err e => rw [hp] at hk; simp at hk
        | err e => simp
        | ok a =>
          obtain ⟨r, b⟩ := a
          have hr := parseStrRangeZ_ne_ub hck ah hk
          simp only [Res.ok_bind]
          cases hv : parseStrRangeZ cfg ah r with
          | ub => exact absurd hv hr
          | err e => simp
          | ok w =>
            obtain ⟨sl, n, -, -, rfl, -⟩ := skipStringNqZ_ok hk
            refine ⟨by simp, fun v r' he => ?_⟩
            simp only [Res.ok_bind, Res.ok.injEq, Prod.mk.injEq] at he
            obtain ⟨-, rfl⟩ := he
            refine ⟨(List.drop_suffix _ _).trans (List.tail_suffix s), ?_⟩
            rw [List.length_drop]; omega

/-! ## Numbers and literals -/

theorem notKnown1_suffix (r : Nat) (s : Bytes) : (notKnown1 r s).2 <:+ s := by
  induction s generalizing r with
  | nil => simp [notKnown1]
  | cons c cs ih =>
    unfold notKnown1
    split
    · exact (ih _).trans (List.suffix_cons c cs)
    · exact List.suffix_rfl

theorem notKnown16_suffix (r : Nat) (s : Bytes) : (notKnown16 r s).2.1 <:+ s := by
  fun_induction notKnown16 r s with
  | case1 r s he h ih => exact ih.trans (List.drop_suffix _ _)
  | case2 => exact List.suffix_rfl

theorem notKnownValZ_zero (s : Bytes) : notKnownValZ 0 s = notKnownVal s := by
  unfold notKnownValZ notKnownVal
  rw [beforeZ_zero, behindZ_zero]
  simp only [List.append_nil]

theorem notKnownVal_suffix (s : Bytes) : (notKnownVal s).2 <:+ s := by
  unfold notKnownVal
  have h := notKnown16_suffix 0 s
  generalize notKnown16 0 s = x at h
  obtain ⟨r, b, e⟩ := x
  dsimp only at h ⊢
  split
  · exact ((notKnown1_suffix _ _).trans (List.drop_suffix _ _)).trans h
  · exact (notKnown1_suffix _ _).trans h

theorem narrowUnsigned_ne_ub (bits v : Nat) : narrowUnsigned bits v ≠ .ub := by
  unfold narrowUnsigned
  repeat' split
  all_goals simp

theorem unsignedNotKnownZ_safe (bits : Nat) (rc : Bool) (s : Bytes) : Safe0 s (unsignedNotKnownZ bits rc 0 s) := by
  unfold unsignedNotKnownZ
  refine .ensure fun _ => ?_
  rw [notKnownValZ_zero]
  have h := notKnownVal_suffix s
  generalize notKnownVal s = x at h
  obtain ⟨r, b⟩ := x
  dsimp only at h ⊢
  split
  · refine .ensure fun _ => ?_
    cases hn : narrowUnsigned bits r with
    | ub => exact absurd hn (narrowUnsigned_ne_ub _ _)
    | err e => exact .err _ _
    | ok v => exact .pure _ h
  · exact .pure _ h

theorem validateSignedFirstZ_safe (s : Bytes) : Safe0 s (validateSignedFirstZ 0 s) := by
  unfold validateSignedFirstZ
  refine .ensure fun _ => ?_
  split
  · exact .pure _ (List.tail_suffix s)
  split
  · exact .pure _ List.suffix_rfl
  split
  · exact .ensure fun _ => .pure _ List.suffix_rfl
  · exact .err _ _

theorem parseIntZ_safe (t : IntTy) (rc : Bool) (s : Bytes) : Safe0 s (parseIntZ t rc 0 s) := by
  unfold parseIntZ
  split
  · unfold parseSignedZ
    refine (validateSignedFirstZ_safe s).bind fun sg b _ hb => ?_
    refine ((unsignedNotKnownZ_safe _ _ b).weak hb).bind fun u b _ hb => ?_
    exact .ensure fun _ => .pure _ ((trimChecked_suffix b).trans hb)
  · unfold parseUnsignedZ
    refine .ensure fun _ => ?_
    refine (unsignedNotKnownZ_safe _ _ s).bind fun u b _ hb => ?_
    exact .ensure fun _ => .pure _ hb

theorem parseBoolZ_safe (s : Bytes) : Safe0 s (parseBoolZ 0 s) := by
  unfold parseBoolZ
  have h : Safe0 s (eatBoolZ 0 s) := by
    unfold eatBoolZ
    split
    · exact .pure _ (List.drop_suffix _ _)
    split
    · exact .pure _ (List.drop_suffix _ _)
    · exact .err _ _
  refine h.bind fun v r _ hr => ?_
  exact .ensure fun _ => .pure _ ((trimChecked_suffix r).trans hr)

theorem eatNullZ_safe (s : Bytes) : eatNullZ 0 s ≠ .ub ∧ ∀ r, eatNullZ 0 s = .ok (some r) → r <:+ s := by
  unfold eatNullZ
  split
  · exact ⟨by simp, fun r h => by cases h; exact List.suffix_rfl⟩
  split
  · cases endOfItemZ 0 (s.drop 4) with
    | false => simp
    | true => exact ⟨by simp, fun r h => by cases h; exact (trimChecked_suffix _).trans (List.drop_suffix _ _)⟩
  · simp

/-! ## Arrays and maps -/

/-- A parser that is safe on every text shorter than `n`. -/
def SafeP (cfg : Cfg) (n : Nat) (p : Nat → Bytes → Res (Val × Bytes)) : Prop := ∀ s, s.length < n → Last cfg s → Safe0 s (p 0 s)

theorem atZ_tail {c : UInt8} {s : Bytes} (h : atZ c 0 s = true) : s.tail.length < s.length := by
  cases s with
  | nil => cases h
  | cons x xs => simp

theorem moveNext_comma {b : Bytes} (h : frontZ (trimChecked b) = chComma) :
    (moveNextChecked (trimChecked b)).length < (trimChecked b).length := by
  unfold moveNextChecked
  rw [trimChecked_idem]
  cases hb : trimChecked b with
  | nil => rw [hb] at h; exact absurd h (by decide)
  | cons c cs =>
    rw [hb] at h
    have : c = chComma := h
    dsimp only
    rw [if_pos this]
    exact Nat.lt_succ_of_le (trimChecked_suffix cs).length_le

theorem moveNext_rbrack {b : Bytes} (h : frontZ (trimChecked b) = chRBrack) :
    moveNextChecked (trimChecked b) = trimChecked b := by
  unfold moveNextChecked
  rw [trimChecked_idem]
  cases hb : trimChecked b with
  | nil => rfl
  | cons c cs =>
    rw [hb] at h
    have : c = chRBrack := h
    dsimp only
    rw [if_neg (by rw [this]; decide)]

theorem arrLoopZ_safe {cfg : Cfg} {p : Nat → Bytes → Res (Val × Bytes)} {n : Nat} (hp : SafeP cfg n p) (s : Bytes)
    (hl : s.length < n) (h : Last cfg s) : Safe0 s (arrLoopZ p 0 s) := by
  induction hn : s.length using Nat.strongRecOn generalizing s with
  | _ m ih =>
    subst hn
    rw [arrLoopZ]
    refine .ensure fun _ => ?_
    refine (hp s hl h).bind fun v b _ hb => ?_
    dsimp only
    refine .ensure fun hc => ?_
    refine .ensure fun _ => ?_
    have hbs : trimChecked b <:+ s := (trimChecked_suffix b).trans hb
    have hm : moveNextChecked (trimChecked b) <:+ s := (moveNextChecked_suffix _).trans hbs
    split
    · exact .pure _ (((trimChecked_suffix _).trans (List.tail_suffix _)).trans hm)
    · rename_i hne
      have hlt : (moveNextChecked (trimChecked b)).length < s.length := by
        simp only [Bool.and_eq_true, Bool.or_eq_true, beq_iff_eq] at hc
        rcases hc.2 with hcc | hcc
        · exact Nat.lt_of_lt_of_le (moveNext_comma hcc) hbs.length_le
        · exact absurd (by rw [moveNext_rbrack hcc]; exact hcc) hne
      rw [dif_pos hlt]
      refine ((ih _ hlt _ (Nat.lt_trans hlt hl) (h.suffix hm) rfl).weak hm).bind fun vs r _ hr => ?_
      exact .pure _ hr

theorem parseArrZ_safe {cfg : Cfg} {p : Nat → Bytes → Res (Val × Bytes)} {n : Nat} (hp : SafeP cfg n p) :
    SafeP cfg (n + 1) (parseArrZ p) := by
  intro s hl h
  unfold parseArrZ
  dsimp only
  refine .ensure fun hz => ?_
  have h1 := atZ_tail hz
  have h2 := (trimChecked_suffix s).length_le
  have h3 := (trimChecked_suffix (trimChecked s).tail).length_le
  have hs : trimChecked (trimChecked s).tail <:+ s :=
    ((trimChecked_suffix _).trans (List.tail_suffix _)).trans (trimChecked_suffix s)
  split
  · exact .pure _ (((trimChecked_suffix _).trans (List.tail_suffix _)).trans hs)
  · refine ((arrLoopZ_safe hp _ (by omega) (h.suffix hs)).weak hs).bind fun vs r _ hr => ?_
    exact .pure _ hr

theorem trimEndOfNameZ_safe (s : Bytes) :
    trimEndOfNameZ 0 s ≠ .ub ∧ ∀ r, trimEndOfNameZ 0 s = .ok r → r <:+ s := by
  unfold trimEndOfNameZ
  dsimp only
  cases moreZ 0 (trimChecked s) with
  | false => simp
  | true =>
    cases (frontZ (trimChecked s) == chColon) with
    | false => simp
    | true =>
      refine ⟨by simp, fun r h => ?_⟩
      simp only [ensure_true, Res.ok_bind, Res.ok.injEq] at h
      subst h
      exact ((trimChecked_suffix _).trans (List.tail_suffix _)).trans (trimChecked_suffix s)

theorem mapLoopZ_safe {cfg : Cfg} (hck : cfg.checked = true) {p : Nat → Bytes → Res (Val × Bytes)} {n : Nat}
    (hp : SafeP cfg n p) (s : Bytes) (hl : s.length < n) (h : Last cfg s) : Safe0 s (mapLoopZ cfg p 0 s) := by
  induction hn : s.length using Nat.strongRecOn generalizing s with
  | _ m ih =>
    subst hn
    rw [mapLoopZ]
    refine .ensure fun _ => ?_
    obtain ⟨h1, h2⟩ := parseStrZ_safe hck true h
    refine Safe0.bind ⟨h1, fun v r he => (h2 v r he).1⟩ fun ky b hb hbs => ?_
    have hlt := (h2 _ _ hb).2
    dsimp only
    obtain ⟨h3, h4⟩ := trimEndOfNameZ_safe b
    cases ht : trimEndOfNameZ 0 b with
    | ub => exact absurd ht h3
    | err e => exact .err _ _
    | ok c =>
      have hc := h4 c ht
      simp only [Res.ok_bind]
      have hcl : c.length < n := Nat.lt_of_le_of_lt (hc.trans hbs).length_le hl
      refine ((hp c hcl (h.suffix (hc.trans hbs))).weak (hc.trans hbs)).bind fun v d hd hds => ?_
      have hdc : d <:+ c := (hp c hcl (h.suffix (hc.trans hbs))).2 _ _ hd
      dsimp only
      refine .ensure fun _ => ?_
      have hm : moveNextChecked d <:+ s := (moveNextChecked_suffix _).trans hds
      split
      · exact .pure _ (((trimChecked_suffix _).trans (List.tail_suffix _)).trans hm)
      · have hl' : (moveNextChecked d).length < s.length := by
          have := (((moveNextChecked_suffix d).trans hdc).trans hc).length_le
          omega
        rw [dif_pos hl']
        refine ((ih _ hl' _ (Nat.lt_trans hl' hl) (h.suffix hm) rfl).weak hm).bind fun vs r _ hr => ?_
        exact .pure _ hr

theorem parseMapZ_safe {cfg : Cfg} (hck : cfg.checked = true) {p : Nat → Bytes → Res (Val × Bytes)} {n : Nat}
    (hp : SafeP cfg n p) : SafeP cfg (n + 1) (parseMapZ cfg p) := by
  intro s hl h
  unfold parseMapZ
  dsimp only
  refine .ensure fun hz => ?_
  have h1 := atZ_tail hz
  have h3 := (trimChecked_suffix s.tail).length_le
  refine .ensure fun _ => ?_
  have hs : trimChecked s.tail <:+ s := (trimChecked_suffix _).trans (List.tail_suffix _)
  split
  · exact .pure _ (((trimChecked_suffix _).trans (List.tail_suffix _)).trans hs)
  · refine ((mapLoopZ_safe hck hp _ (by omega) (h.suffix hs)).weak hs).bind fun vs r _ hr => ?_
    exact .pure _ hr

end Verif
