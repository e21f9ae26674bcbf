import Verif.Model.Exec
import Verif.Spec.Exec
import Verif.Proof.StrDecode

/-! # Lemmas about the execution modes -/

namespace Verif

/-! ## The escaped positions -/

/-- Whether position `n` is escaped, when position 0 is escaped as `p` says. -/
def escAt (p : Bool) : Bytes → Nat → Bool
  | _, 0 => p
  | [], _ + 1 => false
  | c :: cs, n + 1 => escAt (decide (c = chBslash) && !p) cs n

theorem escAt_succ (p : Bool) (bs : Bytes) (n : Nat) :
    escAt p bs (n + 1) = (bs[n]? == some chBslash && !escAt p bs n) := by
  induction bs generalizing p n with
  | nil => cases n <;> simp [escAt]
  | cons c cs ih =>
    cases n with
    | zero => simp only [escAt, List.getElem?_cons_zero]; by_cases hc : c = chBslash <;> simp [hc]
    | succ n =>
      rw [escAt, ih]
      simp [escAt]

theorem slashesBefore_succ (bs : Bytes) (n : Nat) (h : n < bs.length) :
    slashesBefore bs (n + 1) = if bs[n] = chBslash then slashesBefore bs n + 1 else 0 := by
  unfold slashesBefore
  rw [List.take_succ_eq_append_getElem h, List.reverse_append, List.reverse_singleton, List.singleton_append,
    List.takeWhile_cons]
  split <;> simp_all

theorem escAt_slashes (bs : Bytes) (n : Nat) (h : n ≤ bs.length) :
    escAt false bs n = decide (slashesBefore bs n % 2 = 1) := by
  induction n with
  | zero => simp [slashesBefore, escAt]
  | succ n ih =>
    rw [escAt_succ, ih (by omega), slashesBefore_succ bs n h]
    have hg : bs[n]? = some bs[n] := List.getElem?_eq_getElem h
    rw [hg]
    by_cases hc : bs[n] = chBslash
    · simp only [hc, beq_self_eq_true, Bool.true_and, if_true]
      rcases Nat.mod_two_eq_zero_or_one (slashesBefore bs n) with h0 | h0 <;> simp [h0] <;> omega
    · simp [hc]

/-- Where the string ends, when position 0 is escaped as `p` says. -/
def closeE (p : Bool) : Bytes → Option Nat
  | [] => none
  | c :: cs => if c = chQuote ∧ p = false then some 0 else (closeE (decide (c = chBslash) && !p) cs).map (· + 1)

theorem closeE_some {p : Bool} {bs : Bytes} {n : Nat} (h1 : bs[n]? = some chQuote) (h2 : escAt p bs n = false)
    (h3 : ∀ m, m < n → bs[m]? = some chQuote → escAt p bs m = true) : closeE p bs = some n := by
  induction bs generalizing p n with
  | nil => simp at h1
  | cons c cs ih =>
    unfold closeE
    cases n with
    | zero =>
      simp at h1
      rw [if_pos ⟨h1, by simpa [escAt] using h2⟩]
    | succ n =>
      have h0 := h3 0 (by omega)
      rw [if_neg (by
        rintro ⟨rfl, rfl⟩
        simp [escAt] at h0)]
      rw [ih (n := n) (by simpa using h1) (by simpa [escAt] using h2) (by
        intro m hm hq
        have := h3 (m + 1) (by omega) (by simpa using hq)
        simpa [escAt] using this)]
      rfl

theorem closeE_none {p : Bool} {bs : Bytes} (h : ∀ n, bs[n]? = some chQuote → escAt p bs n = true) :
    closeE p bs = none := by
  induction bs generalizing p with
  | nil => rfl
  | cons c cs ih =>
    unfold closeE
    have h0 := h 0
    rw [if_neg (by
      rintro ⟨rfl, rfl⟩
      simp [escAt] at h0)]
    rw [ih (by
      intro m hq
      have := h (m + 1) (by simpa using hq)
      simpa [escAt] using this)]
    rfl

theorem closeE_firstClose {bs : Bytes} {n : Nat} (h : FirstClose bs n) : closeE false bs = some n := by
  obtain ⟨⟨h1, h2⟩, h3⟩ := h
  have hn : n < bs.length := (List.getElem?_eq_some_iff.1 h1).1
  refine closeE_some h1 ?_ ?_
  · rw [escAt_slashes bs n (by omega)]
    simp [h2]
  · intro m hm hq
    have := h3 m hm
    have hm' : m < bs.length := by omega
    rw [escAt_slashes bs m (by omega)]
    by_cases h : slashesBefore bs m % 2 = 0
    · exact absurd ⟨hq, h⟩ this
    · simp; omega

theorem closeE_noClose {bs : Bytes} (h : ∀ n, ¬ ClosesAt bs n) : closeE false bs = none := by
  refine closeE_none ?_
  intro n hq
  have hn : n < bs.length := (List.getElem?_eq_some_iff.1 hq).1
  rw [escAt_slashes bs n (by omega)]
  by_cases h' : slashesBefore bs n % 2 = 0
  · exact absurd ⟨hq, h'⟩ (h n)
  · simp; omega

theorem closeE_append (p : Bool) (a b : Bytes) :
    closeE p (a ++ b) = match closeE p a with
      | some n => some n
      | none => (closeE (escAt p a a.length) b).map (· + a.length) := by
  induction a generalizing p with
  | nil => simp [closeE, escAt]
  | cons c cs ih =>
    rw [List.cons_append, closeE, closeE]
    split
    · rfl
    · rw [ih]
      simp only [List.length_cons, escAt]
      cases closeE (decide (c = chBslash) && !p) cs
      · simp [Nat.add_assoc, Function.comp_def]
      · simp

/-! ## Byte by byte -/

/-- The bytes from the closing quote on; empty if there is none. -/
def fromClose (p : Bool) (bs : Bytes) : Bytes :=
  match closeE p bs with
  | some n => bs.drop n
  | none => []

theorem fromClose_nil (p : Bool) : fromClose p [] = [] := rfl

theorem fromClose_quote (cs : Bytes) : fromClose false (chQuote :: cs) = chQuote :: cs := by
  simp [fromClose, closeE]

theorem fromClose_step {p : Bool} {c : UInt8} (h : ¬ (c = chQuote ∧ p = false)) (cs : Bytes) :
    fromClose p (c :: cs) = fromClose (decide (c = chBslash) && !p) cs := by
  unfold fromClose
  rw [closeE, if_neg h]
  cases closeE (decide (c = chBslash) && !p) cs <;> simp

theorem fromClose_plain {c : UInt8} (h1 : c ≠ chQuote) (h2 : c ≠ chBslash) (cs : Bytes) :
    fromClose false (c :: cs) = fromClose false cs := by
  rw [fromClose_step (by simp [h1])]
  simp [h2]

theorem fromClose_esc (cs : Bytes) : fromClose false (chBslash :: cs) = fromClose false (cs.drop 1) := by
  rw [fromClose_step (by decide)]
  cases cs with
  | nil => rfl
  | cons d ds =>
    simp only [decide_true, Bool.not_false, Bool.and_true]
    rw [fromClose_step (by simp)]
    simp

theorem memSkipStr_fromClose (bs : Bytes) : memSkipStr bs = fromClose false bs := by
  fun_induction memSkipStr bs with
  | case1 => rfl
  | case2 cs => rw [fromClose_quote]
  | case3 h => simp [fromClose_esc, fromClose_nil]
  | case4 h _ _ ih => rw [ih, fromClose_esc]; rfl
  | case5 c cs h1 h2 ih => rw [ih, fromClose_plain h1 h2]

/-- In unchecked mode the closing quote must exist. -/
def closeRes (checked : Bool) (p : Bool) (bs : Bytes) : Res Bytes :=
  match closeE p bs with
  | some n => .ok (bs.drop n)
  | none => if checked then .ok [] else .ub

theorem closeRes_nil (ck p : Bool) : closeRes ck p [] = if ck then .ok [] else .ub := rfl

theorem closeRes_quote (ck : Bool) (cs : Bytes) : closeRes ck false (chQuote :: cs) = .ok (chQuote :: cs) := by
  simp [closeRes, closeE]

theorem closeRes_step {ck p : Bool} {c : UInt8} (h : ¬ (c = chQuote ∧ p = false)) (cs : Bytes) :
    closeRes ck p (c :: cs) = closeRes ck (decide (c = chBslash) && !p) cs := by
  unfold closeRes
  rw [closeE, if_neg h]
  cases closeE (decide (c = chBslash) && !p) cs <;> simp

theorem closeRes_plain {ck : Bool} {c : UInt8} (h1 : c ≠ chQuote) (h2 : c ≠ chBslash) (cs : Bytes) :
    closeRes ck false (c :: cs) = closeRes ck false cs := by
  rw [closeRes_step (by simp [h1])]
  simp [h2]

theorem closeRes_esc (ck : Bool) (cs : Bytes) : closeRes ck false (chBslash :: cs) = closeRes ck false (cs.drop 1) := by
  rw [closeRes_step (by decide)]
  cases cs with
  | nil => rfl
  | cons d ds =>
    simp only [decide_true, Bool.not_false, Bool.and_true]
    rw [closeRes_step (by simp)]
    simp

/-- Moving to the next quote or backslash: the run of other bytes is skipped. -/
theorem moveNextOf_cases (ck : Bool) (keys : List UInt8) (hk : ∀ c, c ∈ keys ↔ c = chQuote ∨ c = chBslash) (bs : Bytes) :
    (moveNextOf ck keys bs = (if ck then .ok [] else .ub) ∧ ∀ c ∈ bs, c ≠ chQuote ∧ c ≠ chBslash) ∨
    ∃ l c cs, bs = l ++ c :: cs ∧ (∀ c ∈ l, c ≠ chQuote ∧ c ≠ chBslash) ∧ (c = chQuote ∨ c = chBslash) ∧
      moveNextOf ck keys bs = .ok (c :: cs) := by
  induction bs with
  | nil => exact Or.inl ⟨by simp [moveNextOf], by simp⟩
  | cons c cs ih =>
    unfold moveNextOf
    by_cases hc : c ∈ keys
    · rw [if_pos hc]
      exact Or.inr ⟨[], c, cs, rfl, by simp, (hk c).1 hc, rfl⟩
    · rw [if_neg hc]
      have hc' : c ≠ chQuote ∧ c ≠ chBslash := by
        have := mt (hk c).2 hc
        exact ⟨fun h => this (Or.inl h), fun h => this (Or.inr h)⟩
      rcases ih with ⟨h1, h2⟩ | ⟨l, d, ds, rfl, h1, h2, h3⟩
      · refine Or.inl ⟨h1, ?_⟩
        intro x hx
        rcases List.mem_cons.1 hx with rfl | hx
        · exact hc'
        · exact h2 x hx
      · refine Or.inr ⟨c :: l, d, ds, rfl, ?_, h2, h3⟩
        intro x hx
        rcases List.mem_cons.1 hx with rfl | hx
        · exact hc'
        · exact h1 x hx

theorem closeRes_run {ck : Bool} {l : Bytes} (h : ∀ c ∈ l, c ≠ chQuote ∧ c ≠ chBslash) (bs : Bytes) :
    closeRes ck false (l ++ bs) = closeRes ck false bs := by
  induction l with
  | nil => rfl
  | cons c cs ih =>
    have hc := h c (by simp)
    rw [List.cons_append, closeRes_plain hc.1 hc.2, ih (fun x hx => h x (by simp [hx]))]

theorem mem_keys1 (c : UInt8) : c ∈ [chBslash, chQuote] ↔ c = chQuote ∨ c = chBslash := by
  simp [or_comm]

theorem mem_keys2 (c : UInt8) : c ∈ [chQuote, chBslash] ↔ c = chQuote ∨ c = chBslash := by
  simp

theorem rtLoop_eq (ck : Bool) (bs : Bytes) : rtLoop ck bs = closeRes ck false bs := by
  induction hn : bs.length using Nat.strongRecOn generalizing bs with
  | ind n ih =>
    rw [rtLoop.eq_def]
    rcases moveNextOf_cases ck [chBslash, chQuote] mem_keys1 bs with ⟨h1, h2⟩ | ⟨l, c, cs, rfl, h1, h2, h3⟩
    · have := closeRes_run (ck := ck) h2 []
      rw [List.append_nil] at this
      rw [this, closeRes_nil]
      cases ck
      · simp only [Bool.false_eq_true, if_false] at h1 ⊢
        split <;> simp_all
      · simp only [if_true] at h1 ⊢
        split <;> simp_all
    · rw [closeRes_run h1]
      split
      · simp_all
      · simp_all
      · simp_all
      · rename_i c' cs' h4
        rw [h3] at h4
        simp only [Res.ok.injEq, List.cons.injEq] at h4
        obtain ⟨rfl, rfl⟩ := h4
        rcases h2 with rfl | rfl
        · rw [if_pos rfl, closeRes_quote]
        · rw [if_neg (by decide), closeRes_esc]
          exact ih _ (by subst hn; simp; omega) _ rfl

theorem simdTail_eq (ck : Bool) (bs : Bytes) : simdTail ck bs = closeRes ck false bs := by
  induction hn : bs.length using Nat.strongRecOn generalizing bs with
  | ind n ih =>
    rw [simdTail.eq_def]
    rcases moveNextOf_cases ck [chQuote, chBslash] mem_keys2 bs with ⟨h1, h2⟩ | ⟨l, c, cs, rfl, h1, h2, h3⟩
    · have := closeRes_run (ck := ck) h2 []
      rw [List.append_nil] at this
      rw [this, closeRes_nil]
      cases ck
      · simp only [Bool.false_eq_true, if_false] at h1 ⊢
        split <;> simp_all
      · simp only [if_true] at h1 ⊢
        split <;> simp_all
    · rw [closeRes_run h1]
      split
      · simp_all
      · simp_all
      · simp_all
      · rename_i c' cs' h4
        rw [h3] at h4
        simp only [Res.ok.injEq, List.cons.injEq] at h4
        obtain ⟨rfl, rfl⟩ := h4
        rcases h2 with rfl | rfl
        · rw [if_pos rfl, closeRes_quote]
        · rw [if_neg (by decide), closeRes_esc]
          exact ih _ (by subst hn; simp; omega) _ rfl

/-! ## Blocks -/

theorem memFindEq_bit (k : UInt8) (bs : Bytes) (i : Nat) (hi : i < 32) :
    (memFindEq k bs).getLsbD i = (bs[i]? == some k) := by
  induction bs generalizing i with
  | nil => simp [memFindEq]
  | cons c cs ih =>
    rw [memFindEq, BitVec.getLsbD_or, BitVec.getLsbD_shiftLeft]
    cases i with
    | zero => by_cases hc : c = k <;> simp [hc]
    | succ i =>
      have h1 : (if c = k then 1#32 else 0#32).getLsbD (i + 1) = false := by
        split <;> simp [BitVec.getLsbD_one]
      rw [h1]
      simp [hi, ih i (by omega)]

theorem even_bit (i : Nat) (hi : i < 32) : (0x55555555#32).getLsbD i = decide (i % 2 = 0) := by
  revert i
  decide +kernel

theorem low16_bit (i : Nat) (hi : i < 32) : (0x0000FFFF#32).getLsbD i = decide (i < 16) := by
  revert i
  decide +kernel

/-- The bits of a carry. -/
def bit01 (p : Bool) : BitVec 32 := if p then 1#32 else 0#32

theorem bit01_bit (p : Bool) (i : Nat) : (bit01 p).getLsbD i = (decide (i = 0) && p) := by
  cases p <;> simp [bit01, BitVec.getLsbD_one]

/-- The invariant along the bits of `find_escaped_branchless`: `f` the bit of `follow_escape`, `c` the carry into the
position of the addition, `e` whether the position is escaped. -/
theorem findEscaped_inv (p : Bool) (bs : Bytes) (b o f : BitVec 32)
    (hb : b = memFindEq chBslash bs &&& ~~~(bit01 p))
    (hf : f = (b <<< 1) ||| bit01 p)
    (ho : o = b &&& ~~~(0x55555555#32) &&& ~~~f) (i : Nat) (hi : i < 31) :
    (i = 0 → BitVec.carry i o b false = false ∧ f.getLsbD 0 = p) ∧
    (0 < i → (f.getLsbD i = true → escAt p bs i = (decide (i % 2 = 1) ^^ BitVec.carry i o b false)) ∧
      (f.getLsbD i = false → escAt p bs i = false ∧ BitVec.carry i o b false = false)) := by
  have bbit : ∀ j, j < 32 → b.getLsbD j = (bs[j]? == some chBslash && !(decide (j = 0) && p)) := by
    intro j hj
    rw [hb, BitVec.getLsbD_and, memFindEq_bit _ _ _ hj, BitVec.getLsbD_not, bit01_bit]
    simp [hj]
  have fbit : ∀ j, j + 1 < 32 → f.getLsbD (j + 1) = b.getLsbD j := by
    intro j hj
    rw [hf, BitVec.getLsbD_or, BitVec.getLsbD_shiftLeft, bit01_bit]
    simp [hj]
  have f0 : f.getLsbD 0 = p := by
    rw [hf, BitVec.getLsbD_or, BitVec.getLsbD_shiftLeft, bit01_bit]
    simp
  have obit : ∀ j, j < 32 → o.getLsbD j = (b.getLsbD j && !decide (j % 2 = 0) && !f.getLsbD j) := by
    intro j hj
    rw [ho]
    simp only [BitVec.getLsbD_and, BitVec.getLsbD_not, even_bit j hj]
    simp [hj]
  induction i with
  | zero => exact ⟨fun _ => ⟨by simp [BitVec.carry_zero], f0⟩, fun h => absurd h (by omega)⟩
  | succ i ih =>
    refine ⟨fun h => absurd h (by omega), fun _ => ?_⟩
    have ih' := ih (by omega)
    rw [BitVec.carry_succ, escAt_succ, fbit i (by omega), obit i (by omega)]
    have hbi := bbit i (by omega)
    rcases Nat.eq_zero_or_pos i with h0 | h0
    · subst h0
      obtain ⟨hc, hf0⟩ := ih'.1 rfl
      rw [hc, hbi, hf0]
      simp only [escAt]
      generalize hx : (bs[0]? == some chBslash) = x
      cases x <;> cases p <;> simp
    · have hbi' : b.getLsbD i = (bs[i]? == some chBslash) := by
        rw [hbi]; simp; omega
      rw [hbi']
      obtain ⟨i1, i2⟩ := ih'.2 h0
      generalize (bs[i]? == some chBslash) = x at *
      generalize escAt p bs i = e at *
      generalize BitVec.carry i o b false = cc at *
      generalize f.getLsbD i = ff at *
      rcases Nat.mod_two_eq_zero_or_one i with h2 | h2
      · have h3 : (i + 1) % 2 = 1 := by omega
        simp only [h2, h3]
        cases ff
        · obtain ⟨rfl, rfl⟩ := i2 rfl
          cases x <;> simp
        · have := i1 rfl
          simp [h2] at this
          subst this
          cases x <;> cases e <;> simp
      · have h3 : (i + 1) % 2 = 0 := by omega
        simp only [h2, h3]
        cases ff
        · obtain ⟨rfl, rfl⟩ := i2 rfl
          cases x <;> simp
        · have := i1 rfl
          simp [h2] at this
          subst this
          cases x <;> cases cc <;> simp

/-- `find_escaped_branchless` marks the escaped positions of a block and passes on whether the byte after the block
is escaped. -/
theorem findEscaped_spec (p : Bool) (bs : Bytes) (hl : bs.length = 16) :
    (findEscaped (bit01 p) (memFindEq chBslash bs)).1 = bit01 (escAt p bs 16) ∧
    ∀ i, i < 16 → (findEscaped (bit01 p) (memFindEq chBslash bs)).2.getLsbD i = escAt p bs i := by
  unfold findEscaped
  dsimp only
  generalize hb : memFindEq chBslash bs &&& ~~~(bit01 p) = b
  generalize hf : (b <<< 1) ||| bit01 p = f
  generalize ho : b &&& ~~~(0x55555555#32) &&& ~~~f = o
  have inv := findEscaped_inv p bs b o f hb.symm hf.symm ho.symm
  have bbit : ∀ j, j < 32 → b.getLsbD j = (bs[j]? == some chBslash && !(decide (j = 0) && p)) := by
    intro j hj
    rw [← hb, BitVec.getLsbD_and, memFindEq_bit _ _ _ hj, BitVec.getLsbD_not, bit01_bit]
    simp [hj]
  have fbit : ∀ j, j + 1 < 32 → f.getLsbD (j + 1) = b.getLsbD j := by
    intro j hj
    rw [← hf, BitVec.getLsbD_or, BitVec.getLsbD_shiftLeft, bit01_bit]
    simp [hj]
  have obit : ∀ j, j < 32 → o.getLsbD j = (b.getLsbD j && !decide (j % 2 = 0) && !f.getLsbD j) := by
    intro j hj
    rw [← ho]
    simp only [BitVec.getLsbD_and, BitVec.getLsbD_not, even_bit j hj]
    simp [hj]
  have bhi : ∀ j, 16 ≤ j → j < 32 → b.getLsbD j = false := by
    intro j h1 h2
    rw [bbit j h2, List.getElem?_eq_none (by omega)]
    simp
  have rbit : ∀ j, j < 32 → (o + b).getLsbD j = (o.getLsbD j ^^ (b.getLsbD j ^^ BitVec.carry j o b false)) :=
    fun j hj => BitVec.getLsbD_add hj o b
  have chi : ∀ j, 17 ≤ j → j < 32 → BitVec.carry j o b false = false := by
    intro j h1 h2
    obtain ⟨k, rfl⟩ : ∃ k, j = k + 1 := ⟨j - 1, by omega⟩
    rw [BitVec.carry_succ, obit k (by omega), bhi k (by omega) (by omega)]
    simp
  refine ⟨?_, ?_⟩
  · apply BitVec.eq_of_getLsbD_eq
    intro i hi
    rw [BitVec.getLsbD_ushiftRight, bit01_bit]
    by_cases h0 : i = 0
    · subst h0
      rw [rbit 16 (by omega), obit 16 (by omega), bhi 16 (by omega) (by omega)]
      obtain ⟨i1, i2⟩ := (inv 16 (by omega)).2 (by omega)
      cases hf16 : f.getLsbD 16
      · obtain ⟨e1, e2⟩ := i2 hf16
        simp [e1, e2]
      · have := i1 hf16
        simp [this]
    · by_cases h16 : 16 + i < 32
      · rw [rbit _ h16, obit _ h16, bhi _ (by omega) h16, chi _ (by omega) h16]
        simp [h0]
      · rw [BitVec.getLsbD_of_ge _ _ (by omega)]
        simp [h0]
  · intro i hi
    rw [BitVec.getLsbD_and, BitVec.getLsbD_xor, even_bit i (by omega), BitVec.getLsbD_shiftLeft]
    cases i with
    | zero =>
      have := ((inv 0 (by omega)).1 rfl).2
      rw [this]; simp [escAt]
    | succ i =>
      obtain ⟨i1, i2⟩ := (inv (i + 1) (by omega)).2 (by omega)
      simp only [show i + 1 < 32 by omega, show ¬ i + 1 < 1 by omega, decide_true, decide_false, Bool.not_false,
        Bool.true_and, Nat.add_sub_cancel]
      rw [BitVec.getLsbD_and, low16_bit i (by omega), rbit i (by omega), obit i (by omega)]
      rw [fbit i (by omega)] at i1 i2 ⊢
      rw [BitVec.carry_succ, obit i (by omega)] at i1
      cases hbi : b.getLsbD i
      · simp [(i2 hbi).1]
      · rw [i1 hbi]
        simp only [hbi, show i < 16 by omega, decide_true]
        have h4 : f.getLsbD i = false → BitVec.carry i o b false = false := by
          intro h
          rcases Nat.eq_zero_or_pos i with h0 | h0
          · exact ((inv i (by omega)).1 h0).1
          · exact (((inv i (by omega)).2 h0).2 h).2
        rcases Nat.mod_two_eq_zero_or_one i with h2 | h2
        · have h3 : (i + 1) % 2 = 1 := by omega
          rw [h2, h3]
          generalize f.getLsbD i = ff
          generalize BitVec.carry i o b false = cc
          cases ff <;> cases cc <;> simp
        · have h3 : (i + 1) % 2 = 0 := by omega
          rw [h2, h3]
          generalize f.getLsbD i = ff at *
          generalize BitVec.carry i o b false = cc at *
          cases ff
          · rw [h4 rfl]; simp
          · cases cc <;> simp

theorem foldl_xor_bit (x : BitVec 32) (i : Nat) (l : List Nat) (a : BitVec 32)
    (h : ∀ j ∈ l, (x <<< j).getLsbD i = false) :
    (l.foldl (fun a j => a ^^^ (x <<< j)) a).getLsbD i = a.getLsbD i := by
  induction l generalizing a with
  | nil => rfl
  | cons j l ih =>
    rw [List.foldl_cons, ih _ (fun k hk => h k (by simp [hk])), BitVec.getLsbD_xor, h j (by simp)]
    simp

/-- Prefix-xor keeps the lowest set bit. -/
theorem prefixXor_low (x : BitVec 32) (n : Nat) (h : ∀ i, i < n → x.getLsbD i = false) :
    ∀ i, i ≤ n → i < 32 → (prefixXor x).getLsbD i = x.getLsbD i := by
  intro i hi h32
  unfold prefixXor
  rw [show List.range 32 = 0 :: (List.range 31).map Nat.succ from List.range_succ_eq_map, List.foldl_cons,
    foldl_xor_bit]
  · simp
  · intro j hj
    obtain ⟨k, -, rfl⟩ := List.mem_map.1 hj
    rw [BitVec.getLsbD_shiftLeft]
    by_cases hk : i < k + 1
    · simp [hk]
    · rw [h (i - k.succ) (by omega)]
      simp

theorem prefixXor_zero : prefixXor 0#32 = 0#32 := by decide +kernel

theorem findLsbSet_eq (x : BitVec 32) (n : Nat) (h32 : n < 32) (h : ∀ i, i < n → x.getLsbD i = false)
    (hn : x.getLsbD n = true) : findLsbSet x = n := by
  unfold findLsbSet
  rw [List.findIdx_eq (by simpa using h32)]
  simp only [List.getElem_range]
  exact ⟨hn, fun j hj => h j hj⟩

/-- What one block gives: the position of the closing quote, or none. -/
theorem block_close (p : Bool) (blk : Bytes) (hl : blk.length = 16) :
    match closeE p blk with
    | some n => n < 16 ∧ prefixXor (memFindEq chQuote blk &&& ~~~(findEscaped (bit01 p) (memFindEq chBslash blk)).2) ≠ 0#32 ∧
        findLsbSet (prefixXor (memFindEq chQuote blk &&& ~~~(findEscaped (bit01 p) (memFindEq chBslash blk)).2)) = n
    | none => prefixXor (memFindEq chQuote blk &&& ~~~(findEscaped (bit01 p) (memFindEq chBslash blk)).2) = 0#32 := by
  obtain ⟨-, he⟩ := findEscaped_spec p blk hl
  generalize hq : memFindEq chQuote blk &&& ~~~(findEscaped (bit01 p) (memFindEq chBslash blk)).2 = q
  have qbit : ∀ i, i < 16 → q.getLsbD i = (blk[i]? == some chQuote && !escAt p blk i) := by
    intro i hi
    rw [← hq, BitVec.getLsbD_and, memFindEq_bit _ _ _ (by omega), BitVec.getLsbD_not, he i hi]
    simp [show i < 32 by omega]
  have qhi : ∀ i, 16 ≤ i → i < 32 → q.getLsbD i = false := by
    intro i h1 h2
    rw [← hq, BitVec.getLsbD_and, memFindEq_bit _ _ _ h2, List.getElem?_eq_none (by omega)]
    simp
  by_cases hex : ∃ n, q.getLsbD n = true
  · obtain ⟨n, hn, hmin⟩ : ∃ n, q.getLsbD n = true ∧ ∀ m, m < n → q.getLsbD m = false := by
      obtain ⟨n, hn⟩ := hex
      induction n using Nat.strongRecOn with
      | ind n ih =>
        by_cases hm : ∃ m, m < n ∧ q.getLsbD m = true
        · obtain ⟨m, h1, h2⟩ := hm
          exact ih m h1 h2
        · refine ⟨n, hn, fun m h1 => ?_⟩
          cases h : q.getLsbD m
          · rfl
          · exact absurd ⟨m, h1, h⟩ hm
    have h32 : n < 32 := by
      rcases Nat.lt_or_ge n 32 with h | h
      · exact h
      · rw [BitVec.getLsbD_of_ge _ _ h] at hn; simp at hn
    have h16 : n < 16 := by
      rcases Nat.lt_or_ge n 16 with h | h
      · exact h
      · rw [qhi n h h32] at hn; simp at hn
    have hb := hn
    rw [qbit n h16] at hb
    simp only [Bool.and_eq_true, beq_iff_eq, Bool.not_eq_true'] at hb
    have hc : closeE p blk = some n := closeE_some hb.1 hb.2 (by
      intro m hm hmq
      have := hmin m hm
      rw [qbit m (by omega), hmq] at this
      simpa using this)
    rw [hc]
    have low := prefixXor_low q n hmin
    have hpn : (prefixXor q).getLsbD n = true := by rw [low n (Nat.le_refl _) h32, hn]
    refine ⟨h16, ?_, ?_⟩
    · intro h0
      rw [h0] at hpn
      simp at hpn
    · exact findLsbSet_eq _ n h32 (fun i hi => by rw [low i (by omega) (by omega), hmin i hi]) hpn
  · have hz : q = 0#32 := by
      apply BitVec.eq_of_getLsbD_eq
      intro i hi
      cases h : q.getLsbD i
      · simp
      · exact absurd ⟨i, h⟩ hex
    have hc : closeE p blk = none := closeE_none (by
      intro m hmq
      have hm : m < blk.length := (List.getElem?_eq_some_iff.1 hmq).1
      have := qbit m (by omega)
      rw [hz, hmq] at this
      simpa using this)
    rw [hc, hz]
    exact prefixXor_zero

/-! ## The SIMD loop -/

theorem escAt_append (p : Bool) (a b : Bytes) (n : Nat) :
    escAt p (a ++ b) (a.length + n) = escAt (escAt p a a.length) b n := by
  induction a generalizing p with
  | nil => simp [escAt]
  | cons c cs ih =>
    simp only [List.cons_append, List.length_cons, escAt]
    rw [show cs.length + 1 + n = (cs.length + n) + 1 by omega, escAt, ih]

theorem closeRes_append_none {ck p : Bool} {a : Bytes} (h : closeE p a = none) (b : Bytes) :
    closeRes ck p (a ++ b) = closeRes ck (escAt p a a.length) b := by
  unfold closeRes
  rw [closeE_append, h]
  dsimp only
  cases closeE (escAt p a a.length) b with
  | none => rfl
  | some n => simp [Nat.add_comm n, List.drop_append]

theorem closeRes_append_some {ck p : Bool} {a : Bytes} {n : Nat} (h : closeE p a = some n) (b : Bytes) :
    closeRes ck p (a ++ b) = .ok ((a ++ b).drop n) := by
  unfold closeRes
  rw [closeE_append, h]

/-- The SIMD search is right when the closing quote is in a full block, or the bytes after the last block begin with one
that is not escaped. -/
theorem simdLoop_eq (ck p : Bool) (bs : Bytes)
    (h : (∃ n, closeE p bs = some n ∧ n / 16 * 16 + 16 ≤ bs.length) ∨ escAt p bs (bs.length / 16 * 16) = false) :
    simdLoop ck (bit01 p) bs = closeRes ck p bs := by
  induction hn : bs.length using Nat.strongRecOn generalizing bs p with
  | ind k ih =>
    rw [simdLoop.eq_def]
    by_cases hl : 16 ≤ bs.length
    · rw [dif_pos hl]
      obtain ⟨blk, rest, rfl, hb⟩ : ∃ blk rest, bs = blk ++ rest ∧ blk.length = 16 :=
        ⟨bs.take 16, bs.drop 16, (List.take_append_drop 16 bs).symm, by simp; omega⟩
      have ht : (blk ++ rest).take 16 = blk := by rw [← hb, List.take_left]
      have hd : (blk ++ rest).drop 16 = rest := by rw [← hb, List.drop_left]
      obtain ⟨hcarry, -⟩ := findEscaped_spec p blk hb
      have hc := block_close p blk hb
      simp only [ht, hd]
      cases hcl : closeE p blk with
      | some n =>
        rw [hcl] at hc
        obtain ⟨h1, h2, h3⟩ := hc
        rw [if_pos h2, h3, closeRes_append_some hcl]
      | none =>
        rw [hcl] at hc
        rw [if_neg (by rw [hc]; simp), hcarry, closeRes_append_none hcl, hb]
        refine ih rest.length (by subst hn; simp; omega) (escAt p blk 16) rest ?_ rfl
        rcases h with ⟨n, h1, h2⟩ | h
        · left
          rw [closeE_append, hcl] at h1
          dsimp only at h1
          rw [hb] at h1
          obtain ⟨m, hm, rfl⟩ := Option.map_eq_some_iff.1 h1
          refine ⟨m, hm, ?_⟩
          rw [List.length_append, hb] at h2
          omega
        · right
          rw [List.length_append, hb, show (16 + rest.length) / 16 * 16 = 16 + rest.length / 16 * 16 by omega] at h
          have := escAt_append p blk rest (rest.length / 16 * 16)
          rw [hb] at this
          rw [← this, h]
    · rw [dif_neg hl, simdTail_eq]
      rcases h with ⟨n, h1, h2⟩ | h
      · omega
      · rw [show bs.length / 16 * 16 = 0 by omega] at h
        have : p = false := by cases bs <;> simpa [escAt] using h
        rw [this]

end Verif
