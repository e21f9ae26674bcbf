import Verif.Spec.Output
import Verif.Proof.Write

/-!
# Outputs: lemmas

The calls of a writer spell its text; what each output does with a sequence of calls.
-/

namespace Verif

open Spec

/-! ## Calls -/

theorem opsText_append (a b : List OutOp) : opsText (a ++ b) = opsText a ++ opsText b := by
  induction a with
  | nil => rfl
  | cons x xs ih => simp [opsText, ih]

/-- Only characters below 0x80 are `put`. -/
def PutsAscii (ops : List OutOp) : Prop := ∀ c, OutOp.put c ∈ ops → c.toNat < 0x80

theorem putsAscii_append {a b : List OutOp} (ha : PutsAscii a) (hb : PutsAscii b) : PutsAscii (a ++ b) := by
  intro c hc
  rcases List.mem_append.1 hc with h | h
  · exact ha c h
  · exact hb c h

/-- The calls end as the result says, and spell its text; `A`: only characters below 0x80 are `put`. -/
structure Rep (A : Prop) (c : Calls) (r : Res Bytes) : Prop where
  ascii : A → PutsAscii c.1
  ends : c.2 = r.bind fun _ => .ok ()
  text : ∀ b, r = .ok b → opsText c.1 = b

variable {A : Prop}

theorem rep_of {ops : List OutOp} (h : PutsAscii ops) : Rep A (.of ops) (.ok (opsText ops)) :=
  ⟨fun _ => h, rfl, fun b hb => by cases hb; rfl⟩

theorem rep_err (e : Err) : Rep A ([], .err e) (.err e) := ⟨by simp [PutsAscii], rfl, fun b hb => by cases hb⟩

theorem rep_ub : Rep A ([], .ub) .ub := ⟨by simp [PutsAscii], rfl, fun b hb => by cases hb⟩

theorem rep_seq {a b : Calls} {ra rb : Res Bytes} (ha : Rep A a ra) (hb : Rep A b rb) :
    Rep A (a.seq b) (do let x ← ra; let y ← rb; .ok (x ++ y)) := by
  obtain ⟨a1, a2⟩ := a
  obtain ⟨b1, b2⟩ := b
  have h1 : a2 = ra.bind fun _ => .ok () := ha.ends
  have h2 : b2 = rb.bind fun _ => .ok () := hb.ends
  cases ra with
  | ok x =>
    simp only [Res.bind] at h1
    subst h1
    refine ⟨fun h => putsAscii_append (ha.ascii h) (hb.ascii h), ?_, ?_⟩
    · show b2 = _
      rw [h2]
      cases rb <;> rfl
    · intro t ht
      cases rb with
      | ok y =>
        simp only [Res.ok_bind, Res.ok.injEq] at ht
        rw [← ht]
        show opsText (a1 ++ b1) = _
        rw [opsText_append, ← ha.text x rfl, ← hb.text y rfl]
      | err e => cases ht
      | ub => cases ht
  | err e =>
    simp only [Res.bind] at h1
    subst h1
    exact ⟨ha.ascii, rfl, fun t ht => by cases ht⟩
  | ub =>
    simp only [Res.bind] at h1
    subst h1
    exact ⟨ha.ascii, rfl, fun t ht => by cases ht⟩

/-- Calls that always return, then others. -/
theorem rep_pre {ops : List OutOp} {b : Calls} {rb : Res Bytes} {t : Bytes} (h : PutsAscii ops) (ht : opsText ops = t)
    (hb : Rep A b rb) : Rep A (Calls.seq (.of ops) b) (do let y ← rb; .ok (t ++ y)) := by
  subst ht
  exact rep_seq (rep_of h) hb

/-- Calls, then others that always return. -/
theorem rep_post {ops : List OutOp} {a : Calls} {ra : Res Bytes} {t : Bytes} (h : PutsAscii ops) (ht : opsText ops = t)
    (ha : Rep A a ra) : Rep A (Calls.seq a (.of ops)) (do let x ← ra; .ok (x ++ t)) := by
  subst ht
  exact rep_seq ha (rep_of h)

theorem Rep.congr {c : Calls} {r r' : Res Bytes} (h : Rep A c r) (e : r = r') : Rep A c r' := e ▸ h

/-! ### Layout -/

theorem putsAscii_nil : PutsAscii [] := by simp [PutsAscii]

theorem putsAscii_write (ps : List Bytes) : PutsAscii [.write ps] := by simp [PutsAscii]

theorem putsAscii_put {c : UInt8} (h : c.toNat < 0x80) : PutsAscii [.put c] := by
  intro d hd
  simp only [List.mem_cons, List.not_mem_nil, or_false, OutOp.put.injEq] at hd
  exact hd ▸ h

theorem putsAscii_cons {op : OutOp} {ops : List OutOp} (h : PutsAscii [op]) (h' : PutsAscii ops) : PutsAscii (op :: ops) :=
  putsAscii_append h h'

theorem newlineOps_ascii (w : WCfg) : PutsAscii (newlineOps w) := by
  unfold newlineOps
  split
  · exact putsAscii_write _
  · exact putsAscii_nil

theorem indentOps_ascii (w : WCfg) (n : Nat) : PutsAscii (indentOps w n) := by
  induction n with
  | zero => exact putsAscii_nil
  | succ n ih =>
    unfold indentOps
    split
    · exact putsAscii_cons (putsAscii_write _) ih
    · exact putsAscii_nil

theorem nextMemberOps_ascii (w : WCfg) (n : Nat) : PutsAscii (nextMemberOps w n) :=
  putsAscii_append (newlineOps_ascii w) (indentOps_ascii w n)

theorem indentOps_text {w : WCfg} (hw : w.pretty = true) (n : Nat) : opsText (indentOps w n) = outputIndent w.indent n := by
  induction n with
  | zero => rfl
  | succ n ih => simp [indentOps, outputIndent, hw, opsText, opText, ih]

theorem nextMemberOps_text (w : WCfg) (n : Nat) : opsText (nextMemberOps w n) = nextMember w n := by
  unfold nextMemberOps nextMember newlineOps
  by_cases hw : w.pretty = true
  · rw [if_pos hw, if_pos hw, opsText_append, indentOps_text hw]
    simp [opsText, opText]
  · rw [if_neg hw, if_neg hw]
    cases n with
    | zero => rfl
    | succ n => simp [indentOps, hw, opsText]

theorem closingOps_ascii (w : WCfg) (n : Nat) (e : Bool) : PutsAscii (closingOps w n e) := by
  unfold closingOps
  split
  · exact putsAscii_nil
  · refine putsAscii_append ?_ (nextMemberOps_ascii w n)
    split
    · exact putsAscii_put (by decide)
    · exact putsAscii_nil

theorem closingOps_text (w : WCfg) (n : Nat) (e : Bool) : opsText (closingOps w n e) = closing w n e := by
  unfold closingOps closing trailing
  split
  · rfl
  · rw [opsText_append, nextMemberOps_text]
    split <;> rfl

theorem gapOps_ascii (w : WCfg) (n k : Nat) : PutsAscii (gapOps w n k) := by
  induction k with
  | zero => exact putsAscii_nil
  | succ k ih =>
    exact putsAscii_append (nextMemberOps_ascii w n)
      (putsAscii_cons (putsAscii_write _) (putsAscii_append (nextMemberOps_ascii w n) ih))

theorem gapOps_text (w : WCfg) (n k : Nat) : opsText (gapOps w n k) = writeGap w n k := by
  induction k with
  | zero => rfl
  | succ k ih =>
    simp only [gapOps, writeGap, opsText_append, opsText, opText, nextMemberOps_text, ih, List.flatten_cons,
      List.flatten_nil, List.append_nil, List.cons_append, List.nil_append]

/-! ### Values -/

theorem utf8Ops_rep (cp : Nat) : Rep A (utf8Ops cp) (utf32ToUtf8 cp) := by
  unfold utf8Ops
  by_cases h : cp ≤ 0x7F
  · rw [if_pos h]
    have he : utf32ToUtf8 cp = .ok [toChar cp] := by
      unfold utf32ToUtf8
      rw [if_pos h]
    rw [he]
    refine rep_of (putsAscii_put ?_)
    unfold toChar
    rw [UInt8.toNat_ofNat']
    omega
  · rw [if_neg h]
    cases utf32ToUtf8 cp with
    | ok bs =>
      refine Rep.congr (rep_of (putsAscii_write _)) ?_
      simp [opsText, opText]
    | err e => exact rep_err e
    | ub => exact rep_ub

theorem rep_write (ps : List Bytes) : Rep A (.of [.write ps]) (.ok ps.flatten) :=
  Rep.congr (rep_of (putsAscii_write ps)) (by simp [opsText, opText])

theorem rep_write1 (b : Bytes) : Rep A (.of [.write [b]]) (.ok b) :=
  Rep.congr (rep_write [b]) (by simp)

theorem escapeOps_rep (rh : Bool) (cp : Nat) : Rep A (escapeOps rh cp) (escapeCp rh cp) := by
  unfold escapeOps escapeCp
  by_cases h : cp = 0x22
  · rw [if_pos h, if_pos h]; exact rep_write1 _
  rw [if_neg h, if_neg h]; clear h
  by_cases h : cp = 0x5C
  · rw [if_pos h, if_pos h]; exact rep_write1 _
  rw [if_neg h, if_neg h]; clear h
  by_cases h : cp = 0x08
  · rw [if_pos h, if_pos h]; exact rep_write1 _
  rw [if_neg h, if_neg h]; clear h
  by_cases h : cp = 0x0C
  · rw [if_pos h, if_pos h]; exact rep_write1 _
  rw [if_neg h, if_neg h]; clear h
  by_cases h : cp = 0x0A
  · rw [if_pos h, if_pos h]; exact rep_write1 _
  rw [if_neg h, if_neg h]; clear h
  by_cases h : cp = 0x0D
  · rw [if_pos h, if_pos h]; exact rep_write1 _
  rw [if_neg h, if_neg h]; clear h
  by_cases h : cp = 0x09
  · rw [if_pos h, if_pos h]; exact rep_write1 _
  rw [if_neg h, if_neg h]; clear h
  by_cases h : cp < 0x20
  · rw [if_pos h, if_pos h]; exact rep_write1 _
  rw [if_neg h, if_neg h]; clear h
  by_cases h : rh = true ∧ 0x7F ≤ cp ∧ cp ≤ 0xFFFF
  · rw [if_pos h, if_pos h]; exact rep_write1 _
  rw [if_neg h, if_neg h]; clear h
  by_cases h : rh = true ∧ 0xFFFF < cp
  · rw [if_pos h, if_pos h]
    refine Rep.congr (rep_of (putsAscii_cons (putsAscii_write _) (putsAscii_write _))) ?_
    simp [opsText, opText]
  · rw [if_neg h, if_neg h]
    exact utf8Ops_rep cp

theorem strBodyOps_rep (rh ei : Bool) (bs : Bytes) : Rep A (strBodyOps rh ei bs) (writeStrBody rh ei bs) := by
  induction hn : bs.length using Nat.strongRecOn generalizing bs with
  | ind n ih =>
  cases bs with
  | nil =>
    rw [strBodyOps.eq_def, writeStrBody.eq_def]
    exact rep_of putsAscii_nil
  | cons c cs =>
    rw [strBodyOps.eq_def, writeStrBody.eq_def]
    simp only
    split
    · rename_i h
      split <;> rename_i h' <;> rw [h] at h' <;> cases h'
      exact rep_ub
    · rename_i e h
      split <;> rename_i h' <;> rw [h] at h' <;> cases h'
      exact rep_err e
    · rename_i cp rest h
      split <;> rename_i h' <;> rw [h] at h' <;> cases h'
      exact rep_seq (escapeOps_rep rh cp) (ih rest.length (hn ▸ utf8Next_lt h) rest rfl)
    · rename_i cp h
      cases ei with
      | true =>
        simp only [if_true]
        split <;> rename_i h' <;> rw [h] at h' <;> cases h'
        exact rep_err _
      | false =>
        simp only [Bool.false_eq_true, if_false]
        split <;> rename_i h' <;> rw [h] at h' <;> cases h'
        exact rep_seq (escapeOps_rep rh cp) (ih cs.length (hn ▸ by simp) cs rfl)

theorem strOps_rep (o : StrOut) (bs : Bytes) : Rep A (strOps o bs) (writeStr o bs) := by
  unfold strOps writeStr
  refine Rep.congr (rep_pre (t := [chQuote]) (putsAscii_put (by decide)) rfl
    (rep_post (t := [chQuote]) (putsAscii_put (by decide)) rfl (strBodyOps_rep _ o.errInvalid bs))) ?_
  cases writeStrBody (!o.allowHigh || o.only7bit) o.errInvalid bs <;> simp

theorem intOps_rep (t : IntTy) (i : Int) : Rep A (.of (intOps t i)) (.ok (writeInt t i)) := by
  unfold intOps
  split
  · rename_i h
    obtain ⟨h1, rfl⟩ := h
    have : writeInt t 0 = [ch0] := by
      unfold writeInt
      simp [h1, writeUnsigned]
    rw [this]
    exact rep_of (putsAscii_put (by decide))
  · exact rep_write1 _

theorem rep_cat {a b : List OutOp} {x y : Bytes} (ha : Rep A (.of a) (.ok x)) (hb : Rep A (.of b) (.ok y)) :
    Rep A (.of (a ++ b)) (.ok (x ++ y)) := rep_seq ha hb

theorem rep_put {c : UInt8} (h : c.toNat < 0x80) : Rep A (.of [.put c]) (.ok [c]) := rep_of (putsAscii_put h)

theorem rep_cons {c : UInt8} (h : c.toNat < 0x80) {a : List OutOp} {x : Bytes} (ha : Rep A (.of a) (.ok x)) :
    Rep A (.of (.put c :: a)) (.ok (c :: x)) := rep_cat (rep_put h) ha

theorem unsignedOps_rep (n : Nat) : Rep A (.of (unsignedOps n)) (.ok (writeUnsigned n)) := by
  unfold unsignedOps
  split
  · rename_i h
    subst h
    refine Rep.congr (rep_put (by decide)) ?_
    simp [writeUnsigned]
  · exact rep_write1 _

theorem twoDigitsOps_rep (n : Nat) : Rep A (.of (twoDigitsOps n)) (.ok (twoDigits n)) := by
  unfold twoDigitsOps twoDigits
  split
  · exact rep_cons (by decide) (unsignedOps_rep n)
  · exact unsignedOps_rep n

theorem civilOps_rep (c : Civil) : Rep A (.of (civilOps c)) (.ok (civilText c ++ [chQuote])) := by
  refine Rep.congr (r := .ok (writeSigned c.year ++ chMinus :: (twoDigits c.month ++ chMinus :: (twoDigits c.day ++
    chUT :: (twoDigits c.hour ++ chColon :: (twoDigits c.minute ++ chColon :: (twoDigits c.second ++
      ((if 0 < c.nano then chDot :: writeUnsigned (stripZeros c.nano) else []) ++ [chUZ, chQuote])))))))) ?_ ?_
  · unfold civilOps
    refine rep_cat (rep_write1 _) (rep_cons (by decide) (rep_cat (twoDigitsOps_rep _) (rep_cons (by decide)
      (rep_cat (twoDigitsOps_rep _) (rep_cons (by decide) (rep_cat (twoDigitsOps_rep _) (rep_cons (by decide)
      (rep_cat (twoDigitsOps_rep _) (rep_cons (by decide) (rep_cat (twoDigitsOps_rep _) (rep_cat ?_
      (rep_write1 _))))))))))))
    split
    · exact rep_cons (by decide) (unsignedOps_rep _)
    · exact rep_of putsAscii_nil
  · simp [civilText]

theorem dateOps_rep (t : Int) : Rep A (dateOps t) (writeDate t) := by
  unfold dateOps writeDate
  cases timePointToCivil t with
  | ok c => exact rep_seq (rep_put (c := chQuote) (by decide)) (civilOps_rep c)
  | err e => exact Rep.congr (rep_seq (rep_put (c := chQuote) (by decide)) (rep_err e)) rfl
  | ub => exact Rep.congr (rep_seq (rep_put (c := chQuote) (by decide)) rep_ub) rfl

theorem rawBodyOps_rep (rh : Bool) (s : Bytes) (h : A → ∀ c ∈ s, c.toNat < 0x80) :
    Rep A (rawBodyOps rh s) (writeUnescaped rh s) := by
  induction s with
  | nil => cases rh <;> exact rep_of putsAscii_nil
  | cons c s ih =>
    unfold rawBodyOps
    by_cases hc : rh = true ∧ ¬ (0x20 ≤ c.toNat ∧ c.toNat ≤ 0x7F)
    · rw [if_pos hc]
      refine Rep.congr (rep_err _) ?_
      obtain ⟨rfl, hc⟩ := hc
      have : (decide (0x20 ≤ c.toNat) && decide (c.toNat ≤ 0x7F)) = false := by
        rw [← Bool.decide_and, decide_eq_false_iff_not]
        exact hc
      simp [writeUnescaped, ensure, this]
    · rw [if_neg hc]
      have hput : Rep A (.of [.put c]) (.ok [c]) :=
        ⟨fun ha => putsAscii_put (h ha c (by simp)), rfl, fun b hb => by cases hb; rfl⟩
      refine Rep.congr (rep_seq hput (ih fun ha d hd => h ha d (List.mem_cons_of_mem _ hd))) ?_
      cases rh with
      | false => simp [writeUnescaped, ensure]
      | true =>
        have : (decide (0x20 ≤ c.toNat) && decide (c.toNat ≤ 0x7F)) = true := by
          rw [← Bool.decide_and, decide_eq_true_iff]
          exact Classical.not_not.1 fun hn => hc ⟨rfl, hn⟩
        simp only [writeUnescaped, ensure, List.all_cons, this, Bool.true_and, Bool.not_true, Bool.false_or]
        cases s.all fun c => decide (0x20 ≤ c.toNat) && decide (c.toNat ≤ 0x7F) <;> simp

theorem rep_puts {s : Bytes} (h : ∀ c ∈ s, c.toNat < 0x80) : Rep A (.of (s.map .put)) (.ok s) := by
  induction s with
  | nil => exact rep_of putsAscii_nil
  | cons c s ih => exact rep_cons (h c (by simp)) (ih fun d hd => h d (List.mem_cons_of_mem _ hd))

theorem doZeros_zero (n : Nat) : ∀ c ∈ doZeros n, c = ch0 := by
  induction n with
  | zero => simp [doZeros]
  | succ n ih =>
    intro c hc
    rw [doZeros] at hc
    split at hc
    · simpa using hc
    · rcases List.mem_cons.1 hc with rfl | hc
      · rfl
      · exact ih c hc

theorem rep_zeros (n : Nat) : Rep A (.of (List.replicate n (.put ch0))) (.ok (List.replicate n ch0)) := by
  have := rep_puts (A := A) (s := List.replicate n ch0) (fun c hc => by rw [List.eq_of_mem_replicate hc]; decide)
  rwa [List.map_replicate] at this

theorem decOps_rep (sig : Nat) (exp whole : Int) : Rep A (.of (decOps sig exp whole)) (.ok (decChars sig exp whole)) := by
  unfold decOps decChars
  split
  · split
    · exact rep_cat (rep_write1 [ch0, chDot]) (rep_cat (rep_puts fun c hc => by rw [doZeros_zero _ c hc]; decide) (unsignedOps_rep sig))
    · dsimp only
      split
      · exact unsignedOps_rep _
      · exact rep_cat (unsignedOps_rep _) (rep_cons (by decide) (rep_cat (rep_zeros _) (unsignedOps_rep _)))
  · exact rep_cat (unsignedOps_rep _) (rep_zeros _)

theorem sciOps_rep (dbl : Bool) (sig : Nat) (exp : Int) (olen : Nat) : Rep A (sciOps dbl sig exp olen) (sciChars dbl sig exp olen) := by
  unfold sciOps
  cases sciChars dbl sig exp olen with
  | ok t => exact rep_write1 t
  | err e => exact rep_err e
  | ub => exact rep_ub

theorem realOps_rep (dbl : Bool) (fmt : FPFmt) (neg : Bool) (sig : Nat) (exp : Int) :
    Rep A (realOps dbl fmt neg sig exp) (toChars dbl fmt neg sig exp) := by
  unfold realOps toChars
  dsimp only
  split
  · exact rep_put (by decide)
  · have hs : Rep A (.of (if neg then [.put chMinus] else [])) (.ok (if neg then [chMinus] else [])) := by
      cases neg
      · exact rep_of putsAscii_nil
      · exact rep_put (by decide)
    by_cases h1 : fmt = .scientific
    · rw [if_pos h1, if_pos (Or.inl h1)]
      exact rep_seq hs (sciOps_rep _ _ _ _)
    · rw [if_neg h1]
      by_cases h2 : fmt = .auto ∧ ((decimalLength dbl sig : Int) + exp < -4 ∨ 6 < (decimalLength dbl sig : Int) + exp)
      · rw [if_pos h2, if_pos (Or.inr h2)]
        exact rep_seq hs (sciOps_rep _ _ _ _)
      · have h3 : ¬ (fmt = .scientific ∨
            fmt = .auto ∧ ((decimalLength dbl sig : Int) + exp < -4 ∨ 6 < (decimalLength dbl sig : Int) + exp)) := fun h => h.elim h1 h2
        rw [if_neg h2, if_neg h3]
        exact rep_seq hs (decOps_rep _ _ _)

theorem quoted_rep {a : Calls} {r : Res Bytes} (h : Rep A a r) :
    Rep A (Calls.seq (.of [.put chQuote]) (Calls.seq a (.of [.put chQuote])))
      (do let x ← r; .ok (chQuote :: (x ++ [chQuote]))) := by
  refine Rep.congr (rep_pre (t := [chQuote]) (putsAscii_put (by decide)) rfl
    (rep_post (t := [chQuote]) (putsAscii_put (by decide)) rfl h)) ?_
  cases r <;> simp

theorem txtOps_rep (seven : Bool) (k : TxtKind) (s : Bytes) (h : A → ∀ c ∈ s, c.toNat < 0x80) :
    Rep A (txtOps seven k s) (writeTxt seven k s) := by
  unfold txtOps writeTxt
  cases k with
  | rawStr ah => exact quoted_rep (rawBodyOps_rep _ s h)
  | date => exact rep_ub
  | custom c =>
    cases c with
    | lit => exact rawBodyOps_rep _ s h
    | str => exact quoted_rep (rawBodyOps_rep _ s h)
    | any => exact quoted_rep (rawBodyOps_rep _ s h)
  | raw => exact rawBodyOps_rep _ s h
  | real => exact rep_ub
  | quoted => exact rep_ub

theorem litOps_rep (al : Bool) (l : LitTy) (x : Lit) : Rep A (litOps al l x) (writeLit al l x) := by
  match x, l with
  | .bool b, .bool => exact rep_write1 _
  | .bool b, .int .. => exact rep_ub
  | .int i, .bool => exact rep_ub
  | .int i, .int t rc =>
    unfold litOps writeLit
    dsimp only
    cases hs : t.signed with
    | true => exact rep_write1 _
    | false =>
      cases al with
      | false => simpa [quoteIf] using intOps_rep t i
      | true => simpa [quoteIf, Calls.seq, Calls.of] using quoted_rep (intOps_rep t i)

section
variable {w : WCfg} {Δ : Env}

theorem commaOps_rep {b : Bool} {op : OutOp} (h : op = .put chComma) :
    PutsAscii (if b then [] else [op]) ∧ opsText (if b then [] else [op]) = if b then [] else [chComma] := by
  subst h
  cases b
  · exact ⟨putsAscii_put (by decide), rfl⟩
  · exact ⟨putsAscii_nil, rfl⟩

theorem closeRep {a : Calls} {ra : Res Bytes} {n : Nat} {e : Bool} {o c : UInt8} {pre : List OutOp} {pt : Bytes}
    (hp : PutsAscii pre) (hpt : opsText pre = pt) (ho : o.toNat < 0x80) (hc : c.toNat < 0x80) (ha : Rep A a ra) :
    Rep A (Calls.seq (.of (.put o :: pre)) (Calls.seq a (.of (closingOps w n e ++ [.put c]))))
      (do let b ← ra; .ok (o :: (pt ++ (b ++ (closing w n e ++ [c]))))) := by
  refine Rep.congr (rep_pre (t := o :: pt) (putsAscii_cons (putsAscii_put ho) hp) ?_
    (rep_post (t := closing w n e ++ [c]) (putsAscii_append (closingOps_ascii w n e) (putsAscii_put hc)) ?_ ha)) ?_
  · simp [opsText, opText, hpt]
  · rw [opsText_append, closingOps_text]
    rfl
  · cases ra <;> simp

mutual
theorem opsVal_rep (n : Nat) (ty : Ty) (v : Val) (hA : A → v.AsciiText) : Rep A (opsVal w Δ n ty v) (writeVal w Δ n ty v) := by
  match v with
  | .bool b =>
    cases ty <;> first | exact rep_ub | exact rep_write1 _
  | .int i =>
    cases ty <;> first | exact rep_ub | exact intOps_rep _ i
  | .str s =>
    cases ty <;> first | exact rep_ub | exact strOps_rep _ s
  | .txt s =>
    cases ty <;> first | exact rep_ub | exact txtOps_rep _ _ s hA
  | .date t =>
    cases ty <;> first | exact rep_ub | skip
    rename_i k
    cases k <;> first | exact rep_ub | exact dateOps_rep t
  | .real x =>
    cases ty <;> first | exact rep_ub | skip
    rename_i k
    cases k <;> first | exact rep_ub | exact realOps_rep _ _ _ _ _
  | .lit x =>
    cases ty <;> first | exact rep_ub | skip
    rename_i k
    cases k <;> first | exact rep_ub | exact litOps_rep _ _ _
  | .none =>
    cases ty <;> first | exact rep_ub | exact rep_write1 _
  | .some v =>
    cases ty <;> first | exact rep_ub | skip
    rename_i ty
    rw [opsVal, writeVal]
    exact opsVal_rep n ty v hA
  | .arr vs =>
    cases ty <;> first | exact rep_ub | skip
    rename_i ty
    rw [opsVal, writeVal]
    exact closeRep putsAscii_nil rfl (by decide) (by decide) (opsElems_rep (n + 1) ty vs hA)
  | .map kvs =>
    cases ty <;> first | exact rep_ub | skip
    rename_i ty
    rw [opsVal, writeVal]
    exact closeRep putsAscii_nil rfl (by decide) (by decide) (opsPairs_rep (n + 1) ty kvs hA)
  | .cls vs =>
    cases ty <;> first | exact rep_ub | skip
    rename_i i
    rw [opsVal.eq_def, writeVal.eq_def]
    simp only
    cases Δ i with
    | obj ms ex => exact closeRep putsAscii_nil rfl (by decide) (by decide) (opsMembers_rep (n + 1) [] true ms vs hA)
    | tup ts ex =>
      exact closeRep (nextMemberOps_ascii w (n + 1)) (nextMemberOps_text w (n + 1)) (by decide) (by decide)
        (opsTuple_rep (n + 1) ts vs hA)
    | ord ms ex =>
      exact closeRep (nextMemberOps_ascii w (n + 1)) (nextMemberOps_text w (n + 1)) (by decide) (by decide)
        (opsOrdered_rep (n + 1) ms.length 0 ms vs hA)
    | var alts => exact rep_ub
    | ivar tag sw alts => exact rep_ub
  | .alt k v =>
    rw [opsVal.eq_def, writeVal.eq_def]
    simp only
    cases (altTys Δ ty)[k]? with
    | none => exact rep_ub
    | some ty' => exact opsVal_rep n ty' v hA
  termination_by structural v
theorem opsElems_rep (n : Nat) (ty : Ty) (vs : List Val) (hA : A → AsciiTexts vs) : Rep A (opsElems w Δ n ty vs) (writeElems w Δ n ty vs) := by
  match vs with
  | [] =>
    rw [opsElems, writeElems]
    exact rep_of putsAscii_nil
  | v :: vs =>
    rw [opsElems, writeElems]
    have hc := commaOps_rep (b := vs.isEmpty) (op := .put chComma) rfl
    refine Rep.congr (rep_pre (nextMemberOps_ascii w n) (nextMemberOps_text w n) (rep_seq (opsVal_rep n ty v fun h => (hA h).1)
      (rep_pre hc.1 hc.2 (opsElems_rep n ty vs fun h => (hA h).2)))) ?_
    cases writeVal w Δ n ty v <;> cases writeElems w Δ n ty vs <;> simp
  termination_by structural vs
theorem opsPairs_rep (n : Nat) (ty : Ty) (kvs : List (Bytes × Val)) (hA : A → AsciiTextPairs kvs) :
    Rep A (opsPairs w Δ n ty kvs) (writePairs w Δ n ty kvs) := by
  match kvs with
  | [] =>
    rw [opsPairs, writePairs]
    exact rep_of putsAscii_nil
  | (k, v) :: kvs =>
    rw [opsPairs, writePairs]
    have hc := commaOps_rep (b := kvs.isEmpty) (op := .put chComma) rfl
    refine Rep.congr (rep_pre (nextMemberOps_ascii w n) (nextMemberOps_text w n) (rep_seq (strOps_rep (w.strOut true) k)
      (rep_seq (rep_write [[chColon], spaceText w]) (rep_seq (opsVal_rep n ty v fun h => (hA h).1)
      (rep_pre hc.1 hc.2 (opsPairs_rep n ty kvs fun h => (hA h).2)))))) ?_
    cases writeStr (w.strOut true) k <;> cases writeVal w Δ n ty v <;> cases writePairs w Δ n ty kvs <;> simp
  termination_by structural kvs
theorem opsMembers_rep (n : Nat) (seen : List Bytes) (first : Bool) (ms : List Member) (vs : List Val) (hA : A → AsciiTexts vs) :
    Rep A (opsMembers w Δ n seen first ms vs) (writeMembers w Δ n seen first ms vs) := by
  match vs with
  | [] =>
    rw [opsMembers.eq_def, writeMembers.eq_def]
    simp only
    split
    · exact rep_of putsAscii_nil
    · exact rep_ub
  | v :: vs =>
    cases ms with
    | nil => exact rep_ub
    | cons m ms =>
      rw [opsMembers.eq_def, writeMembers.eq_def]
      simp only
      split
      · exact opsMembers_rep n seen first ms vs fun h => (hA h).2
      · split
        · exact opsMembers_rep n (m.name :: seen) first ms vs fun h => (hA h).2
        · have hc := commaOps_rep (b := first) (op := .put chComma) rfl
          refine Rep.congr (rep_pre (putsAscii_append hc.1 (putsAscii_append (nextMemberOps_ascii w n)
            (putsAscii_write _))) rfl (rep_seq (opsVal_rep n m.ty v fun h => (hA h).1)
            (opsMembers_rep n (m.name :: seen) false ms vs fun h => (hA h).2))) ?_
          rw [opsText_append, opsText_append, hc.2, nextMemberOps_text]
          cases writeVal w Δ n m.ty v <;> cases writeMembers w Δ n (m.name :: seen) false ms vs <;>
            simp [opsText, opText]
  termination_by structural vs
theorem opsTuple_rep (n : Nat) (ts : List Ty) (vs : List Val) (hA : A → AsciiTexts vs) : Rep A (opsTuple w Δ n ts vs) (writeTuple w Δ n ts vs) := by
  match vs with
  | [] =>
    rw [opsTuple.eq_def, writeTuple.eq_def]
    simp only
    split
    · exact rep_of putsAscii_nil
    · exact rep_ub
  | v :: vs =>
    cases ts with
    | nil => exact rep_ub
    | cons ty ts =>
      rw [opsTuple, writeTuple]
      have hc : PutsAscii (if ts.isEmpty then [] else .put chComma :: nextMemberOps w n) ∧
          opsText (if ts.isEmpty then [] else .put chComma :: nextMemberOps w n) =
            if ts.isEmpty then [] else chComma :: nextMember w n := by
        split
        · exact ⟨putsAscii_nil, rfl⟩
        · exact ⟨putsAscii_cons (putsAscii_put (by decide)) (nextMemberOps_ascii w n),
            by simp [opsText, opText, nextMemberOps_text]⟩
      refine Rep.congr (rep_seq (opsVal_rep n ty v fun h => (hA h).1) (rep_pre hc.1 hc.2 (opsTuple_rep n ts vs fun h => (hA h).2))) ?_
      cases writeVal w Δ n ty v <;> cases writeTuple w Δ n ts vs <;> simp
  termination_by structural vs
theorem opsOrdered_rep (n size idx : Nat) (ms : List (Option Nat × Ty)) (vs : List Val) (hA : A → AsciiTexts vs) :
    Rep A (opsOrdered w Δ n size idx ms vs) (writeOrdered w Δ n size idx ms vs) := by
  match vs with
  | [] =>
    rw [opsOrdered.eq_def, writeOrdered.eq_def]
    simp only
    split
    · exact rep_of putsAscii_nil
    · exact rep_ub
  | v :: vs =>
    cases ms with
    | nil => exact rep_ub
    | cons m ms =>
      obtain ⟨want, ty⟩ := m
      rw [opsOrdered, writeOrdered]
      dsimp only
      generalize max idx (want.getD idx) = a
      have hc : PutsAscii (if a + 1 < size then .put chComma :: nextMemberOps w n else []) ∧
          opsText (if a + 1 < size then .put chComma :: nextMemberOps w n else []) =
            if a + 1 < size then chComma :: nextMember w n else [] := by
        split
        · exact ⟨putsAscii_cons (putsAscii_put (by decide)) (nextMemberOps_ascii w n),
            by simp [opsText, opText, nextMemberOps_text]⟩
        · exact ⟨putsAscii_nil, rfl⟩
      refine Rep.congr (rep_pre (gapOps_ascii w n (a - idx)) (gapOps_text w n (a - idx)) (rep_seq (opsVal_rep n ty v fun h => (hA h).1)
        (rep_pre hc.1 hc.2 (opsOrdered_rep n size (a + 1) ms vs fun h => (hA h).2)))) ?_
      cases writeVal w Δ n ty v <;> cases writeOrdered w Δ n size (a + 1) ms vs <;> simp
  termination_by structural vs
end
end

/-! ## Outputs -/

theorem sumSizes_eq (ps : List Bytes) : sumSizes ps = ps.flatten.length := by
  induction ps with
  | nil => rfl
  | cons b bs ih => simp [sumSizes, ih]

/-- Copying behind what was written so far. -/
theorem copyToBuffer_at {pre P b buf post : Bytes} (h : P.length + b.length ≤ buf.length) :
    copyToBuffer (pre ++ (P ++ (buf.drop P.length ++ post))) (pre.length + P.length) b =
      some (pre ++ ((P ++ b) ++ (buf.drop (P ++ b).length ++ post))) := by
  unfold copyToBuffer
  have h1 : pre ++ (P ++ (buf.drop P.length ++ post)) = (pre ++ P) ++ (buf.drop P.length ++ post) := by simp
  rw [if_pos (by simp; omega), h1]
  have h2 : pre.length + P.length = (pre ++ P).length := by simp
  rw [h2, List.take_left, ← List.drop_drop, List.drop_left, List.drop_append_of_le_length (by simp; omega),
    List.drop_drop]
  simp

theorem copyToBuffer_none {mem b : Bytes} {i : Nat} (h : mem.length < i + b.length) : copyToBuffer mem i b = none := by
  unfold copyToBuffer
  rw [if_neg (by omega)]

/-- What a fold over pieces has to satisfy. -/
theorem isEmpty_flatten {b : Bytes} {bs : List Bytes} (h : b.isEmpty = true) : (b :: bs).flatten = bs.flatten := by
  cases b with
  | nil => rfl
  | cons x xs => cases h

/-! ### Spans -/

/-- The span after `P` was written. -/
def spanAt (pre buf post P : Bytes) : Span :=
  ⟨pre ++ (P ++ (buf.drop P.length ++ post)), pre.length + P.length, buf.length - P.length⟩

theorem spanPieces_at {pre buf post : Bytes} (ps : List Bytes) (P : Bytes)
    (h : P.length + ps.flatten.length ≤ buf.length) :
    spanPieces (spanAt pre buf post P) ps = (spanAt pre buf post (P ++ ps.flatten), .ok ()) := by
  induction ps generalizing P with
  | nil => simp [spanPieces]
  | cons b bs ih =>
    unfold spanPieces
    by_cases hb : b.isEmpty = true
    · rw [if_pos hb, isEmpty_flatten hb]
      rw [isEmpty_flatten hb] at h
      exact ih P h
    · simp only [List.flatten_cons, List.length_append] at h
      rw [if_neg hb, spanAt, copyToBuffer_at (by omega)]
      simp only
      rw [if_pos (by omega)]
      have := ih (P ++ b) (by rw [List.length_append]; omega)
      rw [spanAt] at this
      simp only [List.length_append] at this ⊢
      rw [show pre.length + P.length + b.length = pre.length + (P.length + b.length) by omega,
        show buf.length - P.length - b.length = buf.length - (P.length + b.length) by omega, this]
      simp

theorem spanCall_fits {pre buf post : Bytes} (op : OutOp) (P : Bytes) (h : P.length + (opText op).length ≤ buf.length) :
    spanSink.call (spanAt pre buf post P) op = (spanAt pre buf post (P ++ opText op), .ok ()) := by
  cases op with
  | write ps =>
    simp only [opText] at h
    show spanWrite _ _ = _
    unfold spanWrite
    rw [if_pos (by rw [sumSizes_eq]; show _ ≤ buf.length - P.length; omega)]
    exact spanPieces_at ps P h
  | put c =>
    simp only [opText, List.length_singleton] at h
    show spanPut _ _ = _
    unfold spanPut
    rw [if_neg (by show ¬ buf.length - P.length = 0; omega), spanAt, copyToBuffer_at (by simpa using h)]
    simp [spanAt, opText]
    omega

theorem spanCall_full {pre buf post : Bytes} (op : OutOp) (P : Bytes) (hP : P.length ≤ buf.length)
    (h : buf.length < P.length + (opText op).length) :
    spanSink.call (spanAt pre buf post P) op = (spanAt pre buf post P, .err .outputError) := by
  cases op with
  | write ps =>
    simp only [opText] at h
    show spanWrite _ _ = _
    unfold spanWrite
    rw [if_neg (by rw [sumSizes_eq]; show ¬ _ ≤ buf.length - P.length; omega)]
  | put c =>
    simp only [opText, List.length_singleton] at h
    show spanPut _ _ = _
    unfold spanPut
    rw [if_pos (by show buf.length - P.length = 0; omega)]

theorem spanRun_fits {pre buf post : Bytes} (ops : List OutOp) (P : Bytes)
    (h : P.length + (opsText ops).length ≤ buf.length) :
    spanSink.run (spanAt pre buf post P) ops = (spanAt pre buf post (P ++ opsText ops), .ok ()) := by
  induction ops generalizing P with
  | nil => simp [Sink.run, opsText]
  | cons op ops ih =>
    simp only [opsText, List.length_append] at h
    rw [Sink.run, spanCall_fits op P (by omega)]
    simp only
    rw [ih (P ++ opText op) (by simp; omega)]
    simp [opsText]

theorem spanRun_full {pre buf post : Bytes} (ops : List OutOp) (P : Bytes) (hP : P.length ≤ buf.length)
    (h : buf.length < P.length + (opsText ops).length) :
    ∃ Q, Q <+: opsText ops ∧ (P ++ Q).length ≤ buf.length ∧
      spanSink.run (spanAt pre buf post P) ops = (spanAt pre buf post (P ++ Q), .err .outputError) := by
  induction ops generalizing P with
  | nil => simp [opsText] at h; omega
  | cons op ops ih =>
    by_cases hf : P.length + (opText op).length ≤ buf.length
    · simp only [opsText, List.length_append] at h
      obtain ⟨Q, hQ, hl, hr⟩ := ih (P ++ opText op) (by simpa using hf) (by simp; omega)
      refine ⟨opText op ++ Q, ?_, by simpa using hl, ?_⟩
      · rw [opsText]
        exact (List.prefix_append_right_inj _).2 hQ
      · rw [Sink.run, spanCall_fits op P hf]
        simp only
        rw [hr]
        simp
    · refine ⟨[], List.nil_prefix, by simpa using hP, ?_⟩
      rw [Sink.run, spanCall_full op P hP (by omega)]
      simp

/-! ### Pointers -/

/-- The pointer after `P` was written to `buf`. -/
def ptrAt (pre buf P : Bytes) : Ptr := ⟨pre ++ (P ++ (buf.drop P.length ++ [])), pre.length + P.length⟩

theorem ptrPieces_at {pre buf : Bytes} (ps : List Bytes) (P : Bytes) (h : P.length + ps.flatten.length ≤ buf.length) :
    ptrPieces (ptrAt pre buf P) ps = (ptrAt pre buf (P ++ ps.flatten), .ok ()) := by
  induction ps generalizing P with
  | nil => simp [ptrPieces]
  | cons b bs ih =>
    unfold ptrPieces
    by_cases hb : b.isEmpty = true
    · rw [if_pos hb, isEmpty_flatten hb]
      rw [isEmpty_flatten hb] at h
      exact ih P h
    · simp only [List.flatten_cons, List.length_append] at h
      rw [if_neg hb, ptrAt, copyToBuffer_at (by omega)]
      simp only
      have := ih (P ++ b) (by rw [List.length_append]; omega)
      rw [ptrAt] at this
      simp only [List.length_append] at this ⊢
      rw [show pre.length + P.length + b.length = pre.length + (P.length + b.length) by omega, this]
      simp

theorem ptrCall_fits {pre buf : Bytes} (op : OutOp) (P : Bytes) (h : P.length + (opText op).length ≤ buf.length) :
    ptrSink.call (ptrAt pre buf P) op = (ptrAt pre buf (P ++ opText op), .ok ()) := by
  cases op with
  | write ps => exact ptrPieces_at ps P h
  | put c =>
    simp only [opText, List.length_singleton] at h
    show ptrPut _ _ = _
    unfold ptrPut
    rw [ptrAt, copyToBuffer_at (by simpa using h)]
    simp [ptrAt, opText]
    omega

theorem ptrRun_fits {pre buf : Bytes} (ops : List OutOp) (P : Bytes) (h : P.length + (opsText ops).length ≤ buf.length) :
    ptrSink.run (ptrAt pre buf P) ops = (ptrAt pre buf (P ++ opsText ops), .ok ()) := by
  induction ops generalizing P with
  | nil => simp [Sink.run, opsText]
  | cons op ops ih =>
    simp only [opsText, List.length_append] at h
    rw [Sink.run, ptrCall_fits op P (by omega)]
    simp only
    rw [ih (P ++ opText op) (by simp; omega)]
    simp [opsText]

theorem ptrPieces_full {pre buf : Bytes} (ps : List Bytes) (P : Bytes) (hP : P.length ≤ buf.length)
    (h : buf.length < P.length + ps.flatten.length) : (ptrPieces (ptrAt pre buf P) ps).2 = .ub := by
  induction ps generalizing P with
  | nil => simp at h; omega
  | cons b bs ih =>
    unfold ptrPieces
    by_cases hb : b.isEmpty = true
    · rw [if_pos hb]
      rw [isEmpty_flatten hb] at h
      exact ih P hP h
    · simp only [List.flatten_cons, List.length_append] at h
      rw [if_neg hb]
      by_cases hf : P.length + b.length ≤ buf.length
      · rw [ptrAt, copyToBuffer_at (by omega)]
        simp only
        have := ih (P ++ b) (by simpa using hf) (by rw [List.length_append]; omega)
        rw [ptrAt] at this
        simp only [List.length_append] at this ⊢
        rw [show pre.length + P.length + b.length = pre.length + (P.length + b.length) by omega, this]
      · rw [ptrAt, copyToBuffer_none (by simp; omega)]

theorem ptrRun_full {pre buf : Bytes} (ops : List OutOp) (P : Bytes) (hP : P.length ≤ buf.length)
    (h : buf.length < P.length + (opsText ops).length) : (ptrSink.run (ptrAt pre buf P) ops).2 = .ub := by
  induction ops generalizing P with
  | nil => simp [opsText] at h; omega
  | cons op ops ih =>
    by_cases hf : P.length + (opText op).length ≤ buf.length
    · simp only [opsText, List.length_append] at h
      rw [Sink.run, ptrCall_fits op P hf]
      exact ih (P ++ opText op) (by simpa using hf) (by simp; omega)
    · have hu : (ptrSink.call (ptrAt pre buf P) op).2 = .ub := by
        cases op with
        | write ps => exact ptrPieces_full ps P hP (by simpa [opText] using hf)
        | put c =>
          show (ptrPut _ _).2 = _
          unfold ptrPut
          rw [ptrAt, copyToBuffer_none (by simp [opText] at hf ⊢; omega)]
      rw [Sink.run]
      rcases hc : ptrSink.call (ptrAt pre buf P) op with ⟨p, r⟩
      rw [hc] at hu
      cases hu
      rfl

/-! ### Containers and iterators -/

theorem contPieces_at {pre buf : Bytes} (ps : List Bytes) (P : Bytes) (h : P.length + ps.flatten.length ≤ buf.length) :
    contPieces (pre ++ (P ++ (buf.drop P.length ++ []))) (pre.length + P.length) ps =
      (pre ++ ((P ++ ps.flatten) ++ (buf.drop (P ++ ps.flatten).length ++ [])), .ok ()) := by
  induction ps generalizing P with
  | nil => simp [contPieces]
  | cons b bs ih =>
    unfold contPieces
    by_cases hb : b.isEmpty = true
    · rw [if_pos hb, isEmpty_flatten hb]
      rw [isEmpty_flatten hb] at h
      exact ih P h
    · simp only [List.flatten_cons, List.length_append] at h
      rw [if_neg hb, copyToBuffer_at (by omega)]
      simp only
      have := ih (P ++ b) (by rw [List.length_append]; omega)
      simp only [List.length_append] at this ⊢
      rw [show pre.length + P.length + b.length = pre.length + (P.length + b.length) by omega, this]
      simp [Nat.add_assoc]

theorem contWrite_eq (out : Bytes) (ps : List Bytes) : contWrite out ps = (out ++ ps.flatten, .ok ()) := by
  unfold contWrite
  have := contPieces_at (pre := out) (buf := List.replicate (sumSizes ps) 0) ps [] (by simp [sumSizes_eq])
  simp only [List.nil_append, List.length_nil, List.drop_zero, List.append_nil, Nat.add_zero] at this
  rw [this, sumSizes_eq]
  simp

theorem contCall (out : Bytes) (op : OutOp) : contSink.call out op = (out ++ opText op, .ok ()) := by
  cases op with
  | write ps => exact contWrite_eq out ps
  | put c => rfl

theorem iterCall (out : Bytes) (op : OutOp) : iterSink.call out op = (out ++ opText op, .ok ()) := by
  cases op with
  | write ps =>
    show (_, _) = _
    congr 1
    show List.foldl _ out ps = out ++ ps.flatten
    have hb : ∀ (b o : Bytes), b.foldl (fun o c => o ++ [c]) o = o ++ b := by
      intro b
      induction b with
      | nil => simp
      | cons c cs ih => intro o; simp [ih]
    induction ps generalizing out with
    | nil => simp
    | cons b bs ih => rw [List.foldl_cons, hb, ih]; simp
  | put c => rfl

/-- An output that appends. -/
theorem appendRun {S : Sink Bytes} (h : ∀ out op, S.call out op = (out ++ opText op, .ok ())) (ops : List OutOp)
    (out : Bytes) : S.run out ops = (out ++ opsText ops, .ok ()) := by
  induction ops generalizing out with
  | nil => simp [Sink.run, opsText]
  | cons op ops ih => rw [Sink.run, h]; simp only; rw [ih]; simp [opsText]

/-! ### Streams -/

/-- A stream that started with `room` after it was offered `T`. -/
def streamAt (old : Bytes) (room : Nat) (good : Bool) (T : Bytes) : Stream :=
  ⟨old ++ T.take room, room - T.length, good⟩

/-- What a call on a stream does: everything is taken, or what fits is taken and the call throws. -/
def StreamCall (S : Sink Stream) (op : OutOp) : Prop :=
  ∀ old room P, P.length ≤ room →
    (P.length + (opText op).length ≤ room → S.call (streamAt old room true P) op =
      (streamAt old room true (P ++ opText op), .ok ())) ∧
    (room < P.length + (opText op).length → ∃ g, S.call (streamAt old room true P) op =
      (streamAt old room g (P ++ opText op), .err .outputError))

theorem take_at {old : Bytes} {room : Nat} {g : Bool} {P : Bytes} (b : Bytes) (h : P.length ≤ room) :
    (streamAt old room g P).take b = streamAt old room g (P ++ b) := by
  simp only [Stream.take, streamAt, List.length_append, Stream.mk.injEq, and_true]
  constructor
  · rw [List.take_append, List.append_assoc, List.take_of_length_le h]
  · omega

theorem streamAt_more {old : Bytes} {room : Nat} {g : Bool} {P Q : Bytes} (h : room ≤ P.length) :
    streamAt old room g (P ++ Q) = streamAt old room g P := by
  simp only [streamAt, List.length_append, Stream.mk.injEq, and_true]
  constructor
  · rw [List.take_append_of_le_length h]
  · omega

theorem filePieces_spec (ps : List Bytes) (old : Bytes) (room : Nat) (P : Bytes) (hP : P.length ≤ room) :
    (P.length + ps.flatten.length ≤ room → filePieces (streamAt old room true P) ps =
      (streamAt old room true (P ++ ps.flatten), .ok ())) ∧
    (room < P.length + ps.flatten.length → filePieces (streamAt old room true P) ps =
      (streamAt old room true (P ++ ps.flatten), .err .outputError)) := by
  induction ps generalizing P with
  | nil =>
    simp only [List.flatten_nil, List.length_nil, List.append_nil]
    exact ⟨fun _ => rfl, fun h => by omega⟩
  | cons b bs ih =>
    unfold filePieces
    by_cases hb : b.isEmpty = true
    · rw [if_pos hb, isEmpty_flatten hb]
      exact ih P hP
    · rw [if_neg hb]
      simp only [List.flatten_cons, List.length_append]
      by_cases hf : P.length + b.length ≤ room
      · rw [if_pos (by show min b.length (room - P.length) = _; omega), take_at b hP]
        have := ih (P ++ b) (by simpa using hf)
        simp only [List.length_append, List.append_assoc, Nat.add_assoc] at this ⊢
        exact this
      · rw [if_neg (by show ¬ min b.length (room - P.length) = _; omega), take_at b hP]
        refine ⟨fun h => by omega, fun _ => ?_⟩
        rw [← List.append_assoc, streamAt_more (P := P ++ b) (by rw [List.length_append]; omega)]

theorem fileCall (sc : Bool) (op : OutOp) (h : sc = true → PutsAscii [op]) : StreamCall (fileSink sc) op := by
  intro old room P hP
  cases op with
  | write ps =>
    have := filePieces_spec ps old room P hP
    exact ⟨this.1, fun hh => ⟨true, this.2 hh⟩⟩
  | put c =>
    have hi : charToInt sc c = c.toNat := by
      unfold charToInt
      refine if_neg fun hn => ?_
      have hc : c.toNat < 0x80 := h hn.1 c (by simp)
      omega
    simp only [opText, List.length_singleton]
    show (_ → filePut _ _ _ = _) ∧ (_ → ∃ g, filePut _ _ _ = _)
    unfold filePut fputcResult
    rw [hi, take_at [c] hP]
    have hr : (streamAt old room true P).room = room - P.length := rfl
    rw [hr]
    constructor
    · intro hh
      rw [if_neg (show ¬ room - P.length = 0 by omega), if_pos rfl]
    · intro hh
      refine ⟨true, ?_⟩
      rw [if_pos (show room - P.length = 0 by omega), if_neg (show ¬ (-1 : Int) = c.toNat by omega)]

theorem ostreamTake_at {old : Bytes} {room : Nat} {P : Bytes} (b : Bytes) (h : P.length ≤ room) :
    ostreamTake (streamAt old room true P) b = streamAt old room (decide (P.length + b.length ≤ room)) (P ++ b) := by
  unfold ostreamTake
  rw [if_pos (by rfl), take_at b h]
  simp only [streamAt]
  congr 1
  exact decide_eq_decide.2 (by omega)

theorem ostreamPieces_spec (ps : List Bytes) (old : Bytes) (room : Nat) (P : Bytes) (hP : P.length ≤ room) :
    (P.length + ps.flatten.length ≤ room → ostreamPieces (streamAt old room true P) ps =
      (streamAt old room true (P ++ ps.flatten), .ok ())) ∧
    (room < P.length + ps.flatten.length → ostreamPieces (streamAt old room true P) ps =
      (streamAt old room false (P ++ ps.flatten), .err .outputError)) := by
  induction ps generalizing P with
  | nil =>
    simp only [List.flatten_nil, List.length_nil, List.append_nil]
    exact ⟨fun _ => rfl, fun h => by omega⟩
  | cons b bs ih =>
    unfold ostreamPieces
    by_cases hb : b.isEmpty = true
    · rw [if_pos hb, isEmpty_flatten hb]
      exact ih P hP
    · rw [if_neg hb, ostreamTake_at b hP]
      simp only [List.flatten_cons, List.length_append]
      by_cases hf : P.length + b.length ≤ room
      · rw [decide_eq_true hf, if_pos (by rfl)]
        have := ih (P ++ b) (by simpa using hf)
        simp only [List.length_append, List.append_assoc, Nat.add_assoc] at this ⊢
        exact this
      · rw [decide_eq_false hf, if_neg (by simp [streamAt])]
        refine ⟨fun h => by omega, fun _ => ?_⟩
        rw [← List.append_assoc, streamAt_more (P := P ++ b) (by rw [List.length_append]; omega)]

theorem ostreamCall (op : OutOp) : StreamCall ostreamSink op := by
  intro old room P hP
  cases op with
  | write ps =>
    have := ostreamPieces_spec ps old room P hP
    exact ⟨this.1, fun hh => ⟨false, this.2 hh⟩⟩
  | put c =>
    show (_ → ostreamPut _ _ = _) ∧ (_ → ∃ g, ostreamPut _ _ = _)
    unfold ostreamPut
    rw [ostreamTake_at [c] hP]
    simp only [opText, List.length_singleton]
    constructor
    · intro hh
      rw [decide_eq_true hh, if_pos (by rfl)]
    · intro hh
      refine ⟨false, ?_⟩
      rw [decide_eq_false (by omega), if_neg (by simp [streamAt])]

theorem streamRun {S : Sink Stream} (ops : List OutOp) (hc : ∀ op ∈ ops, StreamCall S op) (old : Bytes) (room : Nat)
    (P : Bytes) (hP : P.length ≤ room) :
    (P.length + (opsText ops).length ≤ room → S.run (streamAt old room true P) ops =
      (streamAt old room true (P ++ opsText ops), .ok ())) ∧
    (room < P.length + (opsText ops).length → ∃ g, S.run (streamAt old room true P) ops =
      (streamAt old room g (P ++ opsText ops), .err .outputError)) := by
  induction ops generalizing P with
  | nil =>
    simp only [opsText, List.length_nil, List.append_nil]
    exact ⟨fun _ => rfl, fun h => by omega⟩
  | cons op ops ih =>
    have h1 := hc op (by simp) old room P hP
    rw [Sink.run]
    simp only [opsText, List.length_append]
    by_cases hf : P.length + (opText op).length ≤ room
    · rw [h1.1 hf]
      have := ih (fun o ho => hc o (by simp [ho])) (P ++ opText op) (by simpa using hf)
      simp only [List.length_append, List.append_assoc, Nat.add_assoc] at this ⊢
      exact this
    · refine ⟨fun h => by omega, fun _ => ?_⟩
      obtain ⟨g, hg⟩ := h1.2 (by omega)
      refine ⟨g, ?_⟩
      rw [hg]
      simp only
      rw [← List.append_assoc, streamAt_more (P := P ++ opText op) (by rw [List.length_append]; omega)]

end Verif
