import Verif.Proof.StrDecode
import Verif.Proof.SkipSafe

/-!
# String decoding stays inside its buffers; truncated escapes
-/

namespace Verif

open Spec

theorem assertWeak_ok (k : Bool) (e : Err) : assertWeak k true e = .ok () := by cases k <;> rfl

theorem fourNibbles_checked {cfg : Cfg} (hc : cfg.checked = true) (a b c d : UInt8) (t : Bytes) :
    ∃ n, fourNibbles cfg (a :: b :: c :: d :: t) = .ok (n, t) := by
  unfold fourNibbles byteFromNibbles
  simp only [hc, if_true, Res.ok_bind]
  exact ⟨_, rfl⟩

theorem encodeWide_length (n : Nat) : (encodeWide n).length ≤ 4 := by
  unfold encodeWide
  split
  · simp
  · split <;> simp

theorem five_cons {x c : Bytes} (h : c.length + 1 + 5 ≤ (x ++ chQuote :: c).length) :
    ∃ u a b d e x', x = u :: a :: b :: d :: e :: x' := by
  rw [List.length_append, List.length_cons] at h
  match x, h with
  | [], h => simp only [List.length_nil] at h; omega
  | [_], h => simp only [List.length_cons, List.length_nil] at h; omega
  | [_, _], h => simp only [List.length_cons, List.length_nil] at h; omega
  | [_, _, _], h => simp only [List.length_cons, List.length_nil] at h; omega
  | [_, _, _, _], h => simp only [List.length_cons, List.length_nil] at h; omega
  | u :: a :: b :: d :: e :: x', _ => exact ⟨u, a, b, d, e, x', rfl⟩

/-- `decode_utf16` in checked mode: no access outside, at most four bytes written, nothing read at or after
`last`. -/
theorem decodeUtf16_checked {cfg : Cfg} (hc : cfg.checked = true) (c x : Bytes) :
    (∃ e, decodeUtf16 cfg (c.length + 1) (x ++ chQuote :: c) = .err e) ∨
    ∃ w y, decodeUtf16 cfg (c.length + 1) (x ++ chQuote :: c) = .ok (w, y ++ chQuote :: c) ∧
      w.length + y.length ≤ x.length := by
  unfold decodeUtf16
  by_cases hl : c.length + 1 + 5 ≤ (x ++ chQuote :: c).length
  case neg =>
    left
    rw [decide_eq_false hl, hc]
    exact ⟨_, rfl⟩
  rw [decide_eq_true hl, hc]
  obtain ⟨u, a, b, d, e, x', rfl⟩ := five_cons hl
  simp only [assertWeak_ok, Res.ok_bind, List.cons_append, List.drop_succ_cons, List.drop_zero]
  obtain ⟨n, hn⟩ := fourNibbles_checked hc a b d e (x' ++ chQuote :: c)
  simp only [hn, Res.ok_bind]
  split
  · right
    exact ⟨_, x', rfl, by simp; omega⟩
  split
  · cases x' with
    | nil =>
      left
      simp only [List.nil_append, List.drop_succ_cons, List.drop_zero]
      rw [decide_eq_false (by omega)]
      exact ⟨_, rfl⟩
    | cons s x'' =>
      simp only [List.cons_append, List.drop_succ_cons, List.drop_zero]
      by_cases hl2 : c.length + 1 + 5 ≤ (x'' ++ chQuote :: c).length
      case neg =>
        left
        rw [decide_eq_false hl2]
        exact ⟨_, rfl⟩
      rw [decide_eq_true hl2]
      obtain ⟨u, a, b, d, e, x', rfl⟩ := five_cons hl2
      simp only [Bool.true_and, List.cons_append, List.head?_cons, List.drop_succ_cons, List.drop_zero]
      obtain ⟨n', hn'⟩ := fourNibbles_checked hc a b d e (x' ++ chQuote :: c)
      simp only [hn', Res.ok_bind]
      cases hu : (some u == some chU) with
      | false => left; exact ⟨_, rfl⟩
      | true =>
        right
        refine ⟨_, x', rfl, ?_⟩
        have := encodeWide_length (((n - 0xD800) * 0x400 + sub32 n' 0xDC00 + 0x10000) % 4294967296)
        simp only [List.length_cons]
        omega
  · right
    refine ⟨_, x', rfl, ?_⟩
    have := encodeWide_length n
    simp only [List.length_cons]
    omega

/-- The states of the decoding loop: before the closing quote, or just past it. -/
def InBuf (c buf : Bytes) : Prop := (∃ y, buf = y ++ chQuote :: c) ∨ buf = c

theorem decodeEscape_checked {cfg : Cfg} (hc : cfg.checked = true) (ah : Bool) (c x : Bytes) :
    (∃ e, decodeEscape cfg ah (c.length + 1) (x ++ chQuote :: c) = .err e) ∨
    ∃ w b, decodeEscape cfg ah (c.length + 1) (x ++ chQuote :: c) = .ok (w, b) ∧ InBuf c b ∧
      w.length + b.length ≤ (x ++ chQuote :: c).length := by
  cases x with
  | nil =>
    right
    refine ⟨[chQuote], c, ?_, Or.inr rfl, by simp; omega⟩
    unfold decodeEscape
    have : assertWeak cfg.checked (!isSpace chQuote) .invalidUTFCodepoint = .ok () := by
      rw [hc]; decide
    simp only [List.nil_append, this, Res.ok_bind]
    rfl
  | cons d x =>
    unfold decodeEscape
    simp only [List.cons_append]
    rw [hc]
    cases !isSpace d with
    | false => left; exact ⟨_, rfl⟩
    | true =>
      simp only [assertWeak_ok, Res.ok_bind]
      have hs : ∀ z : UInt8, ∃ w b, (Res.ok ([z], x ++ chQuote :: c) : Res (Bytes × Bytes)) = .ok (w, b) ∧ InBuf c b ∧
          w.length + b.length ≤ (d :: (x ++ chQuote :: c)).length :=
        fun z => ⟨_, _, rfl, Or.inl ⟨x, rfl⟩, by simp; omega⟩
      split
      · exact Or.inr (hs _)
      split
      · exact Or.inr (hs _)
      split
      · exact Or.inr (hs _)
      split
      · exact Or.inr (hs _)
      split
      · exact Or.inr (hs _)
      split
      · rcases decodeUtf16_checked hc c (d :: x) with ⟨e, he⟩ | ⟨w, y, he, hl⟩
        · exact Or.inl ⟨e, he⟩
        · exact Or.inr ⟨w, _, he, Or.inl ⟨y, rfl⟩, by simp at hl ⊢; omega⟩
      split
      · exact Or.inr (hs _)
      · cases (ah || (true && decide (d.toNat ≤ 0x7F))) with
        | false => left; exact ⟨_, rfl⟩
        | true => exact Or.inr (hs _)

theorem plainRun_stop (x c : Bytes) : ∃ run y, x = run ++ y ∧ plainRun (x ++ chQuote :: c) = (run, y ++ chQuote :: c) ∧
    (y = [] ∨ ∃ d y', y = d :: y' ∧ (d = chQuote ∨ d = chBslash)) := by
  induction x with
  | nil => exact ⟨[], [], rfl, by rw [List.nil_append, plainRun, if_pos (Or.inl rfl)], Or.inl rfl⟩
  | cons d x ih =>
    rw [List.cons_append, plainRun]
    by_cases hd : d = chQuote ∨ d = chBslash
    · rw [if_pos hd]
      exact ⟨[], d :: x, rfl, rfl, Or.inr ⟨d, x, rfl, hd⟩⟩
    · rw [if_neg hd]
      obtain ⟨run, y, rfl, h, h'⟩ := ih
      rw [h]
      exact ⟨d :: run, y, rfl, rfl, h'⟩

theorem strStep_checked {cfg : Cfg} (hc : cfg.checked = true) (ah hq : Bool) (cap : Nat) (c x out : Bytes)
    (hcap : out.length + x.length + 1 ≤ cap) :
    (∃ e, strStep cfg ah hq cap (c.length + 1) (x ++ chQuote :: c) out = .err e) ∨
    ∃ b o, strStep cfg ah hq cap (c.length + 1) (x ++ chQuote :: c) out = .ok (b, o) ∧ InBuf c b ∧
      o.length + b.length ≤ cap + c.length := by
  obtain ⟨run, y, rfl, hp, hy⟩ := plainRun_stop x c
  unfold strStep
  rw [hp]
  simp only [List.length_append] at hcap
  have h1 : assertWeak cfg.checked (decide (run.length ≤ cap - out.length)) .unexpectedEndOfData = .ok () := by
    rw [decide_eq_true (by omega)]; cases cfg.checked <;> rfl
  have h2 : put cap out run = .ok (out ++ run) := by unfold put; rw [if_pos (by omega)]
  have fin : ∀ (b o : Bytes), InBuf c b → o.length + b.length ≤ cap + c.length →
      (∃ e, (do assertWeak cfg.checked (!hq || decide (c.length + 1 < b.length)) .unexpectedEndOfData
                Res.ok (b, o)) = .err e) ∨
      ∃ b' o', (do assertWeak cfg.checked (!hq || decide (c.length + 1 < b.length)) .unexpectedEndOfData
                   Res.ok (b, o)) = .ok (b', o') ∧ InBuf c b' ∧ o'.length + b'.length ≤ cap + c.length := by
    intro b o hb ho
    rw [hc]
    cases (!hq || decide (c.length + 1 < b.length)) with
    | false => left; exact ⟨_, rfl⟩
    | true => right; exact ⟨b, o, rfl, hb, ho⟩
  have other : ∀ (d : UInt8) (y' : Bytes), d ≠ chBslash → y ++ chQuote :: c = d :: y' → 
      (∃ e, (do
        let (b, o) ← (if d = chBslash then do
            let (w, b) ← decodeEscape cfg ah (c.length + 1) (d :: y').tail
            let out ← put cap (out ++ run) w
            .ok (b, out)
          else do
            assertWeak cfg.checked (!hq || decide (c.length + 1 < (d :: y').length)) .invalidString
            .ok (d :: y', out ++ run) : Res (Bytes × Bytes))
        assertWeak cfg.checked (!hq || decide (c.length + 1 < b.length)) .unexpectedEndOfData
        Res.ok (b, o)) = .err e) ∨
      ∃ b' o', (do
        let (b, o) ← (if d = chBslash then do
            let (w, b) ← decodeEscape cfg ah (c.length + 1) (d :: y').tail
            let out ← put cap (out ++ run) w
            .ok (b, out)
          else do
            assertWeak cfg.checked (!hq || decide (c.length + 1 < (d :: y').length)) .invalidString
            .ok (d :: y', out ++ run) : Res (Bytes × Bytes))
        assertWeak cfg.checked (!hq || decide (c.length + 1 < b.length)) .unexpectedEndOfData
        Res.ok (b, o)) = .ok (b', o') ∧ InBuf c b' ∧ o'.length + b'.length ≤ cap + c.length := by
    intro d y' hd hy'
    rw [if_neg hd]
    cases hb : (!hq || decide (c.length + 1 < (d :: y').length)) with
    | false => left; rw [hc]; exact ⟨_, rfl⟩
    | true =>
      have : assertWeak cfg.checked true .invalidString = .ok () := by cases cfg.checked <;> rfl
      simp only [this, Res.ok_bind]
      have hl : (y ++ chQuote :: c).length = (d :: y').length := by rw [hy']
      refine fin (d :: y') (out ++ run) (Or.inl ⟨y, hy'.symm⟩) ?_
      simp only [List.length_append, List.length_cons] at hl ⊢
      omega
  rcases hy with rfl | ⟨d, y', rfl, rfl | rfl⟩
  · simp only [List.nil_append, deref_cons, Res.ok_bind, h1, h2]
    exact other chQuote c (by decide) rfl
  · simp only [List.cons_append, deref_cons, Res.ok_bind, h1, h2]
    exact other chQuote _ (by decide) rfl
  · simp only [List.cons_append, deref_cons, Res.ok_bind, h1, h2, if_true, List.tail_cons]
    rcases decodeEscape_checked hc ah c y' with ⟨e, he⟩ | ⟨w, b, he, hb, hl⟩
    · left
      rw [he]
      exact ⟨e, rfl⟩
    · rw [he]
      simp only [List.length_append, List.length_cons] at hl hcap
      have hb' : c.length ≤ b.length := by
        rcases hb with ⟨y, rfl⟩ | rfl
        · simp; omega
        · simp
      have h3 : put cap (out ++ run) w = .ok (out ++ run ++ w) := by
        unfold put; rw [if_pos (by simp only [List.length_append]; omega)]
      simp only [Res.ok_bind, h3]
      exact fin b (out ++ run ++ w) hb (by simp only [List.length_append]; omega)

theorem strLoop_err {cfg : Cfg} {ah hq : Bool} {cap tl : Nat} {buf out : Bytes} {e : Err}
    (h : strMore cfg tl buf = .ok true) (hs : strStep cfg ah hq cap tl buf out = .err e) :
    strLoop cfg ah hq cap tl buf out = .err e := by
  conv => lhs; rw [strLoop]
  split
  · simp_all
  · simp_all
  · simp_all
  · split <;> simp_all

theorem strLoop_checked {cfg : Cfg} (hc : cfg.checked = true) (ah hq : Bool) (cap : Nat) (c : Bytes)
    (buf out : Bytes) (hb : InBuf c buf) (hcap : out.length + buf.length ≤ cap + c.length) :
    strLoop cfg ah hq cap (c.length + 1) buf out ≠ .ub := by
  induction hn : buf.length using Nat.strongRecOn generalizing buf out with
  | _ n ih =>
    subst hn
    have hm : strMore cfg (c.length + 1) buf = .ok false ∨
        (strMore cfg (c.length + 1) buf = .ok true ∧ c.length + 1 < buf.length) := by
      unfold strMore
      rw [if_pos hc]
      split
      · rename_i h
        cases (buf.head? != some chQuote) with
        | false => exact Or.inl rfl
        | true => exact Or.inr ⟨rfl, h⟩
      · exact Or.inl rfl
    rcases hm with hm | ⟨hm, hl⟩
    · rw [strLoop_stop hm]; simp
    · rcases hb with ⟨x, rfl⟩ | rfl
      · rcases strStep_checked hc ah hq cap c x out (by simp at hcap; omega) with ⟨e, he⟩ | ⟨b, o, he, hb', hcap'⟩
        · rw [strLoop_err hm he]; simp
        · rw [strLoop_step hm he]
          exact ih b.length (strStep_lt he hm) b o hb' hcap' rfl
      · omega

/-- What the scan for the closing quote returns. -/
theorem nqScan_result {off slow : Nat} {bs : Bytes} {sl n : Nat} (h : nqScan off slow bs = some (sl, n)) :
    off ≤ n ∧ bs[n - off]? = some chQuote ∧ (sl = slow ∨ sl < n) := by
  fun_induction nqScan off slow bs with
  | case1 => simp at h
  | case2 => simp at h; obtain ⟨rfl, rfl⟩ := h; simp
  | case3 => simp at h
  | case4 off =>
    rename_i ih
    obtain ⟨h1, h2, h3⟩ := ih h
    refine ⟨by omega, ?_, ?_⟩
    · rw [show n - off = (n - (off + 2)) + 1 + 1 by omega, List.getElem?_cons_succ, List.getElem?_cons_succ]
      exact h2
    · rcases h3 with h3 | h3
      · split at h3
        · right; omega
        · exact Or.inl h3
      · exact Or.inr h3
  | case5 off =>
    rename_i ih
    obtain ⟨h1, h2, h3⟩ := ih h
    refine ⟨by omega, ?_, h3⟩
    rw [show n - off = (n - (off + 1)) + 1 by omega, List.getElem?_cons_succ]
    exact h2

theorem parseNq_result {cfg : Cfg} (hc : cfg.checked = true) {bs : Bytes} {sl n : Nat}
    (h : parseNq cfg bs = .ok (sl, n)) : nqScan 0 npos bs = some (sl, n) := by
  unfold parseNq at h
  rw [if_pos hc] at h
  cases hx : cfg.exclSpecial
  · rw [hx, parseNqCheck_false] at h
    cases hk : nqScan 0 npos bs with
    | none => rw [hk] at h; simp at h
    | some r => rw [hk] at h; simp at h; rw [h]
  · rw [hx] at h
    simp only [parseNqCheck, if_true] at h
    exact nqScan_of_excl h

theorem split_at_quote {bs : Bytes} {n : Nat} (h : bs[n]? = some chQuote) :
    n ≤ bs.length ∧ (bs.take n).length = n ∧ bs.drop n = chQuote :: bs.drop (n + 1) := by
  obtain ⟨hl, hq⟩ := List.getElem?_eq_some_iff.1 h
  refine ⟨by omega, by simp; omega, ?_⟩
  rw [List.drop_eq_getElem_cons hl, hq]

theorem parseStdString_checked {cfg : Cfg} (hc : cfg.checked = true) (ah : Bool) (text c : Bytes) (counter : Nat)
    (hk : counter < 2 ^ 63 → counter ≤ text.length) :
    parseStdString cfg ah text counter (chQuote :: c) ≠ .ub := by
  unfold parseStdString
  have hd : ∃ d t, text ++ chQuote :: c = d :: t := by cases text <;> exact ⟨_, _, rfl⟩
  obtain ⟨d, t, hdt⟩ := hd
  have hlen : t.length = text.length + c.length := by
    have := congrArg List.length hdt; simp at this; omega
  have ht : InBuf c t := by
    cases text with
    | nil => simp at hdt; exact Or.inr hdt.2.symm
    | cons x xs => simp at hdt; exact Or.inl ⟨xs, hdt.2.symm⟩
  have htake : ∀ k, k ≤ text.length - 1 → InBuf c (t.drop k) := by
    intro k hk
    cases text with
    | nil =>
      simp at hk; subst hk; exact ht
    | cons x xs =>
      simp at hdt hk
      left
      refine ⟨xs.drop k, ?_⟩
      rw [← hdt.2, List.drop_append_of_le_length hk]
  have key : ∀ (hq : Bool) (buf : Bytes), (buf = t ∨ buf = text ++ chQuote :: c) →
      (if 1 < counter - 1 ∧ counter < 2 ^ 63 then
        if counter - 1 ≤ text.length + 1 ∧ counter - 1 ≤ buf.length then
          strLoop cfg ah hq (text.length + 1) (chQuote :: c).length (buf.drop (counter - 1)) (buf.take (counter - 1))
        else .ub
      else strLoop cfg ah hq (text.length + 1) (chQuote :: c).length buf []) ≠ .ub := by
    intro hq buf hbuf
    split
    · rename_i hf
      have hk' := hk hf.2
      rcases hbuf with rfl | rfl
      · rw [if_pos (by omega)]
        exact strLoop_checked hc ah hq _ c _ _ (htake _ (by omega)) (by simp; omega)
      · rw [if_pos (by simp; omega)]
        refine strLoop_checked hc ah hq _ c _ _ (Or.inl ⟨text.drop (counter - 1), ?_⟩) (by simp; omega)
        rw [List.drop_append_of_le_length (by omega)]
    · rcases hbuf with rfl | rfl
      · exact strLoop_checked hc ah hq _ c _ _ ht (by simp; omega)
      · exact strLoop_checked hc ah hq _ c _ _ (Or.inl ⟨text, rfl⟩) (by simp; omega)
  have hde : deref (text ++ chQuote :: c) = .ok d := by rw [hdt]; rfl
  have htl : (text ++ chQuote :: c).tail = t := by rw [hdt]; rfl
  dsimp only
  rw [hde]
  exact key (d == chQuote) _ (by
    split
    · exact Or.inl htl
    · exact Or.inr rfl)

theorem parseStr_checked {cfg : Cfg} (hc : cfg.checked = true) (ah : Bool) (bs : Bytes) :
    parseStr cfg ah bs ≠ .ub := by
  unfold parseStr
  refine Res.bind_ne_ub (ensure_ne_ub _ _) fun _ hne => ?_
  refine Res.bind_ne_ub (skipString_ne_ub hc _ _) fun p hp => ?_
  obtain ⟨r, rest⟩ := p
  cases bs with
  | nil => simp at hne
  | cons q t =>
    unfold skipString skipStringNq at hp
    simp only [Res.bind_eq_ok] at hp
    obtain ⟨_, -, _, -, ⟨r', rest'⟩, ⟨⟨sl, n⟩, h1, h2⟩, h3⟩ := hp
    simp at h2 h3
    obtain ⟨rfl, rfl⟩ := h2
    obtain ⟨rfl, rfl⟩ := h3
    obtain ⟨-, h4, h5⟩ := nqScan_result (parseNq_result hc h1)
    rw [Nat.sub_zero] at h4
    obtain ⟨h6, h7, h8⟩ := split_at_quote h4
    dsimp only
    refine Res.bind_ne_ub ?_ fun _ _ => by simp
    rw [h7, List.drop_succ_cons, h8]
    unfold parseStrRange
    split
    · refine parseStdString_checked hc ah _ _ _ ?_
      intro hk
      dsimp only at hk ⊢
      rw [h7]
      rcases h5 with rfl | h5
      · exact absurd hk (by decide)
      · omega
    · simp

/-! ## Bodies with a broken escape -/

theorem isRaw_isStrBody {b : Bytes} (h : IsStrBody b) : IsRaw b := by
  induction h with
  | nil => exact .nil
  | plain _ h2 h3 _ ih => exact .plain h2 h3 ih
  | esc _ _ ih => exact .esc ih
  | @uni x y z w _ h1 h2 h3 h4 _ ih =>
    have hx : ∀ {c : UInt8}, IsHex c → c ≠ 0x22 ∧ c ≠ 0x5C := by
      intro c hc
      refine ⟨?_, ?_⟩ <;> (rintro rfl; revert hc; unfold IsHex IsDig; decide)
    exact .esc (.plain (hx h1).1 (hx h1).2 (.plain (hx h2).1 (hx h2).2 (.plain (hx h3).1 (hx h3).2
      (.plain (hx h4).1 (hx h4).2 ih))))

theorem isRaw_append {a b : Bytes} (ha : IsRaw a) (hb : IsRaw b) : IsRaw (a ++ b) := by
  induction ha with
  | nil => exact hb
  | plain h1 h2 _ ih => exact .plain h1 h2 ih
  | esc _ ih => exact .esc ih

theorem nqScan_raw {b : Bytes} (h : IsRaw b) (off slow : Nat) (c : Bytes) :
    ∃ sl, nqScan off slow (b ++ chQuote :: c) = some (sl, off + b.length) := by
  induction h generalizing off slow with
  | nil => exact ⟨slow, nqScan_cons_quote off slow c⟩
  | @plain x b h1 h2 _ ih =>
    obtain ⟨sl, h⟩ := ih (off + 1) slow
    refine ⟨sl, ?_⟩
    rw [List.cons_append, nqScan_cons_plain off slow _ h1 h2, h, List.length_cons]
    simp only [Option.some.injEq, Prod.mk.injEq, true_and]; omega
  | @esc d b _ ih =>
    obtain ⟨sl, h⟩ := ih (off + 2) (if slow = npos then off else slow)
    refine ⟨sl, ?_⟩
    rw [List.cons_append, List.cons_append, nqScan_cons_esc, h, List.length_cons, List.length_cons]
    simp only [Option.some.injEq, Prod.mk.injEq, true_and]; omega

/-- A raw body splits at its first escape. -/
theorem nqScan_raw_first {run r : Bytes} {d : UInt8} (hr : ∀ c ∈ run, IsPlain c) (h : IsRaw r)
    (hl : run.length < npos) (c : Bytes) :
    nqScan 0 npos ((run ++ 0x5C :: d :: r) ++ chQuote :: c) = some (run.length, (run ++ 0x5C :: d :: r).length) := by
  rw [List.append_assoc, List.cons_append, List.cons_append,
    nqScan_plain 0 npos run _ (fun x hx => ⟨(hr x hx).2.1, (hr x hx).2.2⟩), nqScan_cons_esc, if_pos rfl]
  obtain ⟨sl, hs⟩ := nqScan_raw h (0 + run.length + 2) (0 + run.length) c
  have := nqScan_keep (by omega) hs
  rw [hs, this]
  simp; omega

theorem skipString_raw {cfg : Cfg} (hc : cfg.checked = true) {b c : Bytes} {sl : Nat}
    (h : nqScan 0 npos (b ++ chQuote :: c) = some (sl, b.length)) :
    (∃ e, skipString cfg false (chQuote :: (b ++ chQuote :: c)) = .err e) ∨
    skipString cfg false (chQuote :: (b ++ chQuote :: c)) = .ok ({ text := b, counter := sl }, c) := by
  unfold skipString skipStringNq
  have h1 : assertWeak cfg.checked (!(b ++ chQuote :: c).isEmpty) .invalidString = .ok () := by
    have : (b ++ chQuote :: c).isEmpty = false := by simp
    rw [this]; cases cfg.checked <;> rfl
  simp only [beq_self_eq_true, ensure_true, Res.ok_bind, h1]
  cases hp : parseNq cfg (b ++ chQuote :: c) with
  | ub => exact absurd hp (parseNq_ne_ub hc _)
  | err e => left; exact ⟨e, rfl⟩
  | ok p =>
    right
    obtain ⟨sl', n⟩ := p
    have := parseNq_result hc hp
    rw [h] at this
    simp at this
    obtain ⟨rfl, rfl⟩ := this
    simp

/-- The loop fails at a broken escape. -/
theorem strLoop_broken (cfg : Cfg) (ah hq : Bool) (cap tl : Nat) (e : Bytes) (htl : tl ≤ e.length)
    (he : ∃ x, decodeEscape cfg ah tl e = .err x) (b : Bytes) :
    ∀ (s out : Bytes), Unesc b s → out.length + s.length ≤ cap →
    ∃ x, strLoop cfg ah hq cap tl (b ++ chBslash :: e) out = .err x := by
  induction hn : b.length using Nat.strongRecOn generalizing b with
  | _ n ih =>
    subst hn
    intro s out h hcap
    obtain ⟨run, b', s', rfl, rfl, i1, i2, i3⟩ := unesc_split h
    have hm : ∀ t : Bytes, tl ≤ t.length → strMore cfg tl (run ++ 0x5C :: t) = .ok true := by
      intro t ht
      cases run with
      | nil => exact strMore_cons cfg (by decide) (by simp; omega)
      | cons x xs =>
        obtain ⟨-, hx, -⟩ := i1 x (by simp)
        exact strMore_cons cfg hx (by simp; omega)
    rcases i3 with rfl | ⟨r, rfl⟩
    · cases i2
      obtain ⟨x, hx⟩ := he
      refine ⟨x, ?_⟩
      simp only [List.append_nil] at *
      refine strLoop_err (hm e htl) ?_
      unfold strStep
      rw [plainRun_run run i1 _ (Or.inr rfl)]
      have h1 : assertWeak cfg.checked (decide (run.length ≤ cap - out.length)) .unexpectedEndOfData = .ok () := by
        rw [decide_eq_true (by omega)]; cases cfg.checked <;> rfl
      have h2 : put cap out run = .ok (out ++ run) := by unfold put; rw [if_pos (by omega)]
      simp only [deref_cons, Res.ok_bind, h1, h2, List.tail_cons, if_true, hx]
      rfl
    · obtain ⟨w, b'', s'', j1, rfl, j3, j4⟩ := decodeEscape_body (tl := tl) cfg ah i2 (chBslash :: e)
        (by simp; omega)
      by_cases hqe : hq = true → tl < (b'' ++ chBslash :: e).length
      · have hs := strStep_escape (cfg := cfg) (ah := ah) (hq := hq) (cap := cap) (tl := tl) (run := run)
          (e := r ++ chBslash :: e) (out := out) (w := w) (b := b'' ++ chBslash :: e) i1 j1
          (by simp only [List.length_append] at hcap; omega) hqe
        rw [List.append_assoc, List.cons_append, strLoop_step (hm _ (by simp; omega)) hs]
        exact ih b''.length (by simp; omega) b'' rfl s'' (out ++ run ++ w) j3
          (by simp only [List.length_append] at hcap ⊢; omega)
      · exact absurd (fun _ => by simp; omega) hqe

/-- Decoding the range of a string with a broken escape. -/
theorem parseStr_broken {cfg : Cfg} (hc : cfg.checked = true) (ah : Bool) {p s t c : Bytes} {d : UInt8}
    (h : Unesc p s) (ht : IsRaw t) (hl : (p ++ 0x5C :: d :: t).length < 2 ^ 63)
    (he : ∃ x, decodeEscape cfg ah (c.length + 1) (d :: t ++ chQuote :: c) = .err x) :
    ∃ x, parseStr cfg ah (chQuote :: ((p ++ 0x5C :: d :: t) ++ chQuote :: c)) = .err x := by
  have hnp : (2 : Nat) ^ 63 < npos := by decide
  have hslen := unesc_length h
  have hraw := isRaw_isStrBody (unesc_isStrBody h)
  obtain ⟨run, b', s', rfl, rfl, i1, i2, i3⟩ := unesc_split h
  have hk : ∃ d' r', run ++ b' ++ 0x5C :: d :: t = run ++ 0x5C :: d' :: r' ∧ IsRaw r' := by
    rcases i3 with rfl | ⟨r, rfl⟩
    · exact ⟨d, t, by simp, ht⟩
    · have := isRaw_isStrBody (unesc_isStrBody i2)
      cases this with
      | plain _ h2 _ => exact absurd rfl h2
      | @esc d' r' h' => exact ⟨d', r' ++ 0x5C :: d :: t, by simp, isRaw_append h' (.esc ht)⟩
  obtain ⟨d', r', hk1, hk2⟩ := hk
  have hrl : run.length < 2 ^ 63 := by simp only [List.length_append] at hl; omega
  have hsc := nqScan_raw_first i1 hk2 (d := d') (by omega) c
  rw [← hk1] at hsc
  rcases skipString_raw hc hsc with ⟨e, hs⟩ | hs
  · refine ⟨e, ?_⟩
    unfold parseStr
    rw [hs]
    simp only [List.isEmpty_cons, Bool.not_false, ensure_true, Res.ok_bind]
    rfl
  · unfold parseStr
    rw [hs]
    simp only [List.isEmpty_cons, Bool.not_false, ensure_true, Res.ok_bind]
    have hdrop : (chQuote :: (run ++ b' ++ 0x5C :: d :: t ++ chQuote :: c)).drop
        ((run ++ b' ++ 0x5C :: d :: t).length + 1) = chQuote :: c := by
      rw [List.drop_succ_cons, List.drop_left]
    rw [hdrop]
    suffices hh : ∃ x, parseStrRange cfg ah { text := run ++ b' ++ 0x5C :: d :: t, counter := run.length }
        (chQuote :: c) = .err x by
      obtain ⟨x, hx⟩ := hh
      exact ⟨x, by rw [hx]; rfl⟩
    unfold parseStrRange
    have : needsSlowPath run.length = true := by simpa [needsSlowPath] using hrl
    simp only [this, Bool.or_true, if_true]
    unfold parseStdString
    have hd : ∃ x u, run ++ b' ++ 0x5C :: d :: t ++ chQuote :: c = x :: u ∧ x ≠ chQuote := by
      rw [hk1]
      cases run with
      | nil => exact ⟨0x5C, d' :: r' ++ chQuote :: c, by simp, by decide⟩
      | cons x xs => exact ⟨x, xs ++ 0x5C :: d' :: r' ++ chQuote :: c, by simp, (i1 x (by simp)).2.1⟩
    obtain ⟨x, u, hxt, hx⟩ := hd
    have hq : (x == chQuote) = false := by simpa using hx
    dsimp only
    rw [hxt]
    simp only [deref_cons, Res.ok_bind, hq, Bool.false_eq_true, if_false]
    rw [← hxt]
    simp only [List.length_append] at hslen
    by_cases hfs : 1 < run.length - 1
    · rw [if_pos ⟨hfs, hrl⟩, if_pos (by simp; omega)]
      have e0 : run ++ b' ++ 0x5C :: d :: t ++ chQuote :: c = run ++ (b' ++ chBslash :: (d :: t ++ chQuote :: c)) := by
        simp
      have e1 : (run ++ b' ++ 0x5C :: d :: t ++ chQuote :: c).take (run.length - 1) = run.take (run.length - 1) := by
        rw [e0, List.take_append_of_le_length (by omega)]
      have e2 : (run ++ b' ++ 0x5C :: d :: t ++ chQuote :: c).drop (run.length - 1)
          = (run.drop (run.length - 1) ++ b') ++ chBslash :: (d :: t ++ chQuote :: c) := by
        rw [e0, List.drop_append_of_le_length (by omega), List.append_assoc]
      rw [e1, e2]
      have hu : Unesc (run.drop (run.length - 1) ++ b') (run.drop (run.length - 1) ++ s') :=
        unesc_plain (fun c hc => i1 c (List.mem_of_mem_drop hc)) i2
      exact strLoop_broken cfg ah false _ (c.length + 1) _ (by simp; omega) he _ _ _ hu (by simp; omega)
    · rw [if_neg (by omega)]
      have e0 : run ++ b' ++ 0x5C :: d :: t ++ chQuote :: c = (run ++ b') ++ chBslash :: (d :: t ++ chQuote :: c) := by
        simp
      rw [e0]
      exact strLoop_broken cfg ah false _ (c.length + 1) _ (by simp; omega) he _ _ _ h (by simp; omega)

/-- A truncated `\u` escape. -/
theorem decodeEscape_short {cfg : Cfg} (hc : cfg.checked = true) (ah : Bool) {t c : Bytes} (h : t.length < 4) :
    ∃ x, decodeEscape cfg ah (c.length + 1) (0x75 :: t ++ chQuote :: c) = .err x := by
  rw [List.cons_append, decodeEscape_u]
  unfold decodeUtf16
  rw [decide_eq_false (by simp; omega), hc]
  exact ⟨_, rfl⟩

/-- A high surrogate without a second escape. -/
theorem decodeEscape_lone {cfg : Cfg} (hc : cfg.checked = true) (ah : Bool) {x y z w : UInt8} {r c : Bytes}
    (hx : IsHex x) (hy : IsHex y) (hz : IsHex z) (hw : IsHex w)
    (hs : 0xD800 ≤ hex4 x y z w ∧ hex4 x y z w ≤ 0xDBFF) (h : r.length < 6 ∨ r[1]? ≠ some 0x75) :
    ∃ e, decodeEscape cfg ah (c.length + 1) (0x75 :: (x :: y :: z :: w :: r) ++ chQuote :: c) = .err e := by
  rw [List.cons_append, decodeEscape_u]
  unfold decodeUtf16
  rw [decide_eq_true (by simp), hc]
  simp only [assertWeak_ok, Res.ok_bind, List.drop_succ_cons, List.drop_zero, List.cons_append,
    fourNibbles_hex cfg _ hx hy hz hw]
  rw [if_neg (by omega), if_pos hs]
  have : (decide (c.length + 1 + 5 ≤ ((r ++ chQuote :: c).drop 1).length) &&
      ((r ++ chQuote :: c).drop 1).head? == some chU) = false := by
    rcases h with h | h
    · rw [decide_eq_false (by simp; omega)]; rfl
    · rcases Nat.lt_or_ge r.length 2 with h2 | h2
      · rw [decide_eq_false (by simp; omega)]; rfl
      · match r, h2 with
        | a :: b :: r, _ =>
          simp only [List.getElem?_cons_succ, List.getElem?_cons_zero, ne_eq, Option.some.injEq] at h
          simp [h]
  rw [this]
  exact ⟨_, rfl⟩

end Verif
