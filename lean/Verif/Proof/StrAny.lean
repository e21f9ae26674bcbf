import Verif.Proof.StrSafe

/-!
# Reading a string from a range that need not have been a string
-/

namespace Verif

open Spec

/-- There is a quote, and no backslash in front of it. -/
def QuoteAhead (a : Bytes) : Prop := ∃ p s, a = p ++ chQuote :: s ∧ ∀ x ∈ p, ¬ (x = chQuote ∨ x = chBslash)

theorem QuoteAhead.quote (c : Bytes) : QuoteAhead (chQuote :: c) := ⟨[], c, rfl, by simp⟩

theorem five_cons' {x a : Bytes} (h : a.length + 5 ≤ (x ++ a).length) :
    ∃ u v b d e x', x = u :: v :: b :: d :: e :: x' := by
  rw [List.length_append] at h
  match x, h with
  | [], h => simp only [List.length_nil] at h; omega
  | [_], h => simp only [List.length_cons, List.length_nil] at h; omega
  | [_, _], h => simp only [List.length_cons, List.length_nil] at h; omega
  | [_, _, _], h => simp only [List.length_cons, List.length_nil] at h; omega
  | [_, _, _, _], h => simp only [List.length_cons, List.length_nil] at h; omega
  | u :: v :: b :: d :: e :: x', _ => exact ⟨u, v, b, d, e, x', rfl⟩

theorem decodeUtf16_any {cfg : Cfg} (hc : cfg.checked = true) (a x : Bytes) :
    (∃ e, decodeUtf16 cfg a.length (x ++ a) = .err e) ∨
    ∃ w y, decodeUtf16 cfg a.length (x ++ a) = .ok (w, y ++ a) ∧ w.length + y.length ≤ x.length := by
  unfold decodeUtf16
  by_cases hl : a.length + 5 ≤ (x ++ a).length
  case neg =>
    left
    rw [decide_eq_false hl, hc]
    exact ⟨_, rfl⟩
  rw [decide_eq_true hl, hc]
  obtain ⟨u, v, b, d, e, x', rfl⟩ := five_cons' hl
  simp only [assertWeak_ok, Res.ok_bind, List.cons_append, List.drop_succ_cons, List.drop_zero]
  obtain ⟨n, hn⟩ := fourNibbles_checked hc v b d e (x' ++ a)
  simp only [hn, Res.ok_bind]
  split
  · right
    exact ⟨_, x', rfl, by simp; omega⟩
  split
  · cases x' with
    | nil =>
      left
      simp only [List.nil_append]
      rw [decide_eq_false (by simp only [List.length_drop]; omega)]
      exact ⟨_, rfl⟩
    | cons s x'' =>
      simp only [List.cons_append, List.drop_succ_cons, List.drop_zero]
      by_cases hl2 : a.length + 5 ≤ (x'' ++ a).length
      case neg =>
        left
        rw [decide_eq_false hl2]
        exact ⟨_, rfl⟩
      rw [decide_eq_true hl2]
      obtain ⟨u, v, b, d, e, x', rfl⟩ := five_cons' hl2
      simp only [Bool.true_and, List.cons_append, List.head?_cons, List.drop_succ_cons, List.drop_zero]
      obtain ⟨n', hn'⟩ := fourNibbles_checked hc v b d e (x' ++ a)
      simp only [hn', Res.ok_bind]
      cases hu : (some u == some chU) with
      | false => left; exact ⟨_, rfl⟩
      | true =>
        right
        refine ⟨_, x', rfl, ?_⟩
        have := encodeWide_length (((n - 0xD800) * 0x400 + sub32 n' 0xDC00 + 0x10000) % 4294967296)
        simp only [List.length_cons]
        omega
  · right
    refine ⟨_, x', rfl, ?_⟩
    have := encodeWide_length n
    simp only [List.length_cons]
    omega

/-- The states of the loop: in front of the end of the range with enough room, or at or behind it. -/
def InRange (cap : Nat) (a buf out : Bytes) : Prop := (∃ y, buf = y ++ a ∧ out.length + y.length + 1 ≤ cap) ∨ buf.length ≤ a.length

theorem decodeEscape_any {cfg : Cfg} (hc : cfg.checked = true) (ah : Bool) (a x : Bytes) (ha : a ≠ []) :
    (∃ e, decodeEscape cfg ah a.length (x ++ a) = .err e) ∨
    ∃ w b, decodeEscape cfg ah a.length (x ++ a) = .ok (w, b) ∧
      ((∃ y, b = y ++ a ∧ w.length + y.length ≤ x.length) ∨ (b.length ≤ a.length ∧ w.length ≤ x.length + 1)) := by
  obtain ⟨d, z, hz⟩ : ∃ d z, x ++ a = d :: z := by
    cases x with
    | nil => cases a with | nil => exact absurd rfl ha | cons d z => exact ⟨d, z, rfl⟩
    | cons d x => exact ⟨d, x ++ a, rfl⟩
  have hfin : (∃ y, z = y ++ a ∧ 1 + y.length ≤ x.length) ∨ (z.length ≤ a.length ∧ 1 ≤ x.length + 1) := by
    cases x with
    | nil => right; exact ⟨by simp only [List.nil_append] at hz; rw [hz]; simp, by omega⟩
    | cons c x =>
      left
      simp only [List.cons_append, List.cons.injEq] at hz
      exact ⟨x, hz.2.symm, by simp; omega⟩
  rw [hz]
  unfold decodeEscape
  simp only
  rw [hc]
  cases !isSpace d with
  | false => left; exact ⟨_, rfl⟩
  | true =>
    simp only [assertWeak_ok, Res.ok_bind]
    have hs : ∀ q : UInt8, ∃ w b, (Res.ok ([q], z) : Res (Bytes × Bytes)) = .ok (w, b) ∧
        ((∃ y, b = y ++ a ∧ w.length + y.length ≤ x.length) ∨ (b.length ≤ a.length ∧ w.length ≤ x.length + 1)) :=
      fun q => ⟨_, _, rfl, hfin⟩
    split
    · exact Or.inr (hs _)
    split
    · exact Or.inr (hs _)
    split
    · exact Or.inr (hs _)
    split
    · exact Or.inr (hs _)
    split
    · exact Or.inr (hs _)
    split
    · rw [← hz]
      rcases decodeUtf16_any hc a x with ⟨e, he⟩ | ⟨w, y, he, hl⟩
      · exact Or.inl ⟨e, he⟩
      · exact Or.inr ⟨w, _, he, Or.inl ⟨y, rfl, hl⟩⟩
    split
    · exact Or.inr (hs _)
    · cases (ah || (true && decide (d.toNat ≤ 0x7F))) with
      | false => left; exact ⟨_, rfl⟩
      | true => exact Or.inr (hs _)

theorem plainRun_split {p s : Bytes} (hp : ∀ x ∈ p, ¬ (x = chQuote ∨ x = chBslash)) {d : UInt8} (hd : d = chQuote ∨ d = chBslash) :
    plainRun (p ++ d :: s) = (p, d :: s) := by
  induction p with
  | nil => rw [List.nil_append, plainRun, if_pos hd]
  | cons c p ih =>
    rw [List.cons_append, plainRun, if_neg (hp c (by simp)), ih fun x hx => hp x (by simp [hx])]

theorem plainRun_any (x : Bytes) {a : Bytes} (ha : QuoteAhead a) :
    (∃ run d y, x = run ++ d :: y ∧ (d = chQuote ∨ d = chBslash) ∧ plainRun (x ++ a) = (run, d :: (y ++ a))) ∨
    ∃ run s, plainRun (x ++ a) = (run, chQuote :: s) ∧ s.length + 1 ≤ a.length := by
  by_cases h : ∃ run d y, x = run ++ d :: y ∧ (d = chQuote ∨ d = chBslash) ∧ ∀ c ∈ run, ¬ (c = chQuote ∨ c = chBslash)
  · obtain ⟨run, d, y, rfl, hd, hr⟩ := h
    left
    refine ⟨run, d, y, rfl, hd, ?_⟩
    rw [List.append_assoc, List.cons_append, plainRun_split hr hd]
  · right
    have hx : ∀ c ∈ x, ¬ (c = chQuote ∨ c = chBslash) := by
      clear ha
      induction x with
      | nil => simp
      | cons c x ih =>
        by_cases hc : c = chQuote ∨ c = chBslash
        · exact absurd ⟨[], c, x, rfl, hc, by simp⟩ h
        · intro z hz
          rcases List.mem_cons.1 hz with rfl | hz
          · exact hc
          · refine ih (fun ⟨run, d, y, h1, h2, h3⟩ => h ⟨c :: run, d, y, by rw [h1]; rfl, h2, ?_⟩) z hz
            intro q hq
            rcases List.mem_cons.1 hq with rfl | hq
            · exact hc
            · exact h3 q hq
    obtain ⟨p, s, rfl, hp⟩ := ha
    refine ⟨x ++ p, s, ?_, by simp⟩
    rw [← List.append_assoc, plainRun_split ?_ (Or.inl rfl)]
    intro z hz
    rcases List.mem_append.1 hz with hz | hz
    · exact hx z hz
    · exact hp z hz

/-- The end of a step. -/
def stepEnd (cfg : Cfg) (hq : Bool) (tl : Nat) (b o : Bytes) : Res (Bytes × Bytes) := do
  assertWeak cfg.checked (!hq || decide (tl < b.length)) .unexpectedEndOfData
  .ok (b, o)

theorem stepEnd_any {cfg : Cfg} (hc : cfg.checked = true) (hq : Bool) {cap : Nat} {a b o : Bytes} (h : InRange cap a b o) :
    (∃ e, stepEnd cfg hq a.length b o = .err e) ∨
      ∃ b' o', stepEnd cfg hq a.length b o = .ok (b', o') ∧ InRange cap a b' o' := by
  unfold stepEnd
  rw [hc]
  cases (!hq || decide (a.length < b.length)) with
  | false => left; exact ⟨_, rfl⟩
  | true => right; exact ⟨b, o, rfl, h⟩

theorem strStep_any {cfg : Cfg} (hc : cfg.checked = true) (ah hq : Bool) (cap : Nat) {a x out : Bytes} (ha : QuoteAhead a)
    (hcap : out.length + x.length + 1 ≤ cap) :
    (∃ e, strStep cfg ah hq cap a.length (x ++ a) out = .err e) ∨
    ∃ b o, strStep cfg ah hq cap a.length (x ++ a) out = .ok (b, o) ∧ InRange cap a b o := by
  have hne : a ≠ [] := by obtain ⟨p, s, rfl, -⟩ := ha; simp
  have hr : strStep cfg ah hq cap a.length (x ++ a) out = (do
      let c ← deref (plainRun (x ++ a)).2
      assertWeak cfg.checked (decide ((plainRun (x ++ a)).1.length ≤ cap - out.length)) .unexpectedEndOfData
      let o ← put cap out (plainRun (x ++ a)).1
      let (b, o) ← (if c = chBslash then do
          let (w, b) ← decodeEscape cfg ah a.length (plainRun (x ++ a)).2.tail
          let o ← put cap o w
          .ok (b, o)
        else do
          assertWeak cfg.checked (!hq || decide (a.length < (plainRun (x ++ a)).2.length)) .invalidString
          .ok ((plainRun (x ++ a)).2, o) : Res (Bytes × Bytes))
      stepEnd cfg hq a.length b o) := rfl
  rw [hr]
  have quote : ∀ (run z : Bytes), plainRun (x ++ a) = (run, chQuote :: z) →
      (out.length + run.length ≤ cap → InRange cap a (chQuote :: z) (out ++ run)) →
      (∃ e, (do
      let c ← deref (plainRun (x ++ a)).2
      assertWeak cfg.checked (decide ((plainRun (x ++ a)).1.length ≤ cap - out.length)) .unexpectedEndOfData
      let o ← put cap out (plainRun (x ++ a)).1
      let (b, o) ← (if c = chBslash then do
          let (w, b) ← decodeEscape cfg ah a.length (plainRun (x ++ a)).2.tail
          let o ← put cap o w
          .ok (b, o)
        else do
          assertWeak cfg.checked (!hq || decide (a.length < (plainRun (x ++ a)).2.length)) .invalidString
          .ok ((plainRun (x ++ a)).2, o) : Res (Bytes × Bytes))
      stepEnd cfg hq a.length b o) = .err e) ∨ ∃ b o, (do
      let c ← deref (plainRun (x ++ a)).2
      assertWeak cfg.checked (decide ((plainRun (x ++ a)).1.length ≤ cap - out.length)) .unexpectedEndOfData
      let o ← put cap out (plainRun (x ++ a)).1
      let (b, o) ← (if c = chBslash then do
          let (w, b) ← decodeEscape cfg ah a.length (plainRun (x ++ a)).2.tail
          let o ← put cap o w
          .ok (b, o)
        else do
          assertWeak cfg.checked (!hq || decide (a.length < (plainRun (x ++ a)).2.length)) .invalidString
          .ok ((plainRun (x ++ a)).2, o) : Res (Bytes × Bytes))
      stepEnd cfg hq a.length b o) = .ok (b, o) ∧ InRange cap a b o := by
    intro run z hp hi
    rw [hp]
    simp only [deref_cons, Res.ok_bind]
    by_cases hl : run.length ≤ cap - out.length
    case neg => left; rw [decide_eq_false hl, hc]; exact ⟨_, rfl⟩
    have hl' : out.length + run.length ≤ cap := by omega
    rw [decide_eq_true hl]
    simp only [assertWeak_ok, Res.ok_bind, put, if_pos hl']
    rw [if_neg (by decide)]
    rw [hc]
    cases (!hq || decide (a.length < (chQuote :: z).length)) with
    | false => left; exact ⟨_, rfl⟩
    | true =>
      simp only [assertWeak_ok, Res.ok_bind]
      exact stepEnd_any hc hq (hi hl')
  rcases plainRun_any x ha with ⟨run, d, y, rfl, rfl | rfl, hp⟩ | ⟨run, s, hp, hl⟩
  · refine quote run _ hp fun _ => Or.inl ⟨chQuote :: y, rfl, ?_⟩
    simp only [List.length_append, List.length_cons] at hcap ⊢
    omega
  · simp only [List.length_append, List.length_cons] at hcap
    have h1 : run.length ≤ cap - out.length := by omega
    have h2 : out.length + run.length ≤ cap := by omega
    rw [hp]
    simp only [deref_cons, Res.ok_bind, decide_eq_true h1, assertWeak_ok, put, if_pos h2, if_true, List.tail_cons]
    rcases decodeEscape_any hc ah a y hne with ⟨e, he⟩ | ⟨w, b, he, hb⟩
    · left; rw [he]; exact ⟨e, rfl⟩
    · rw [he]
      have h3 : (out ++ run).length + w.length ≤ cap := by
        simp only [List.length_append]
        rcases hb with ⟨q, -, hb⟩ | ⟨-, hb⟩ <;> omega
      simp only [Res.ok_bind, if_pos h3]
      refine stepEnd_any hc hq ?_
      rcases hb with ⟨q, rfl, hb⟩ | ⟨hb, -⟩
      · refine Or.inl ⟨q, rfl, ?_⟩
        simp only [List.length_append]
        omega
      · exact Or.inr hb
  · exact quote run s hp fun _ => Or.inr (by simpa using hl)

theorem strLoop_any {cfg : Cfg} (hc : cfg.checked = true) (ah hq : Bool) (cap : Nat) {a : Bytes} (ha : QuoteAhead a)
    (buf out : Bytes) (hb : InRange cap a buf out) : strLoop cfg ah hq cap a.length buf out ≠ .ub := by
  induction hn : buf.length using Nat.strongRecOn generalizing buf out with
  | _ n ih =>
    subst hn
    have hm : strMore cfg a.length buf = .ok false ∨ (strMore cfg a.length buf = .ok true ∧ a.length < buf.length) := by
      unfold strMore
      rw [if_pos hc]
      split
      · rename_i h
        cases (buf.head? != some chQuote) with
        | false => exact Or.inl rfl
        | true => exact Or.inr ⟨rfl, h⟩
      · exact Or.inl rfl
    rcases hm with hm | ⟨hm, hl⟩
    · rw [strLoop_stop hm]; simp
    · rcases hb with ⟨x, rfl, hcap⟩ | hb
      · rcases strStep_any hc ah hq cap ha hcap with ⟨e, he⟩ | ⟨b, o, he, hb'⟩
        · rw [strLoop_err hm he]; simp
        · rw [strLoop_step hm he]
          exact ih b.length (strStep_lt he hm) b o hb' rfl
      · omega

theorem parseStdString_any {cfg : Cfg} (hc : cfg.checked = true) (ah : Bool) (text : Bytes) {a : Bytes} (counter : Nat)
    (ha : QuoteAhead a) (hk : counter < 2 ^ 63 → counter ≤ text.length) :
    parseStdString cfg ah text counter a ≠ .ub := by
  have hne : a ≠ [] := by obtain ⟨p, s, rfl, -⟩ := ha; simp
  unfold parseStdString
  obtain ⟨d, t, hdt⟩ : ∃ d t, text ++ a = d :: t := by
    cases text with
    | nil => cases a with | nil => exact absurd rfl hne | cons d z => exact ⟨d, z, rfl⟩
    | cons d x => exact ⟨d, x ++ a, rfl⟩
  have hlen : t.length + 1 = text.length + a.length := by
    have := congrArg List.length hdt; simp at this; omega
  have key : ∀ (hq : Bool) (buf : Bytes), (buf = t ∨ buf = text ++ a) →
      (if 1 < counter - 1 ∧ counter < 2 ^ 63 then
        if counter - 1 ≤ text.length + 1 ∧ counter - 1 ≤ buf.length then
          strLoop cfg ah hq (text.length + 1) a.length (buf.drop (counter - 1)) (buf.take (counter - 1))
        else .ub
      else strLoop cfg ah hq (text.length + 1) a.length buf []) ≠ .ub := by
    intro hq buf hbuf
    have hbuf' : (∃ y, buf = y ++ a ∧ y.length ≤ text.length ∧ text.length ≤ y.length + 1) ∨
        (text = [] ∧ buf.length ≤ a.length) := by
      rcases hbuf with rfl | rfl
      · cases text with
        | nil => right; simp only [List.length_nil] at hlen; exact ⟨rfl, by omega⟩
        | cons x xs =>
          left
          simp only [List.cons_append, List.cons.injEq] at hdt
          exact ⟨xs, hdt.2.symm, by simp, by simp⟩
      · exact Or.inl ⟨text, rfl, Nat.le_refl _, by omega⟩
    split
    · rename_i hf
      have hk' := hk hf.2
      rcases hbuf' with ⟨y, rfl, hy, hy'⟩ | ⟨rfl, hy⟩
      · rw [if_pos (by simp; omega)]
        refine strLoop_any hc ah hq _ ha _ _ (Or.inl ⟨y.drop (counter - 1), ?_, ?_⟩)
        · rw [List.drop_append_of_le_length (by omega)]
        · simp only [List.length_take, List.length_append, List.length_drop]
          omega
      · simp only [List.length_nil] at hk'; omega
    · refine strLoop_any hc ah hq _ ha _ _ ?_
      rcases hbuf' with ⟨y, rfl, hy, hy'⟩ | ⟨rfl, hy⟩
      · exact Or.inl ⟨y, rfl, by simp; omega⟩
      · exact Or.inr hy
  have hde : deref (text ++ a) = .ok d := by rw [hdt]; rfl
  have htl : (text ++ a).tail = t := by rw [hdt]; rfl
  dsimp only
  rw [hde]
  exact key (d == chQuote) _ (by
    split
    · exact Or.inl htl
    · exact Or.inr rfl)

end Verif
