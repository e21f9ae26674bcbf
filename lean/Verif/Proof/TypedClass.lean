import Verif.Proof.TypedBasic
import Verif.Props.Int
import Verif.Proof.Hash
import Verif.Proof.SkipAgree

/-!
# Typed parsing: classes
-/

namespace Verif

open Spec

/-! ## Names -/

theorem toQuote_plain {n : Bytes} (hn : chQuote ∉ n) (k : Bytes) :
    toQuote (n ++ chQuote :: k) = (n, chQuote :: k) := by
  induction n with
  | nil => simp [toQuote]
  | cons c n ih =>
    simp only [List.mem_cons, not_or] at hn
    rw [List.cons_append, toQuote, if_neg (fun h => hn.1 h.symm), ih hn.2]

theorem strBody_no_quote {n : Bytes} (hn : IsStrBody n) (hp : PlainName n) : chQuote ∉ n := by
  induction hn with
  | nil => simp
  | @plain c cs h1 h2 h3 _ ih =>
    simp only [PlainName, List.mem_cons, not_or] at hp
    simp only [List.mem_cons, not_or]
    exact ⟨fun h => h2 h.symm, ih hp.2⟩
  | esc => simp [PlainName] at hp
  | uni => simp [PlainName] at hp

/-- A member name. -/
theorem parseName_ck {t : TCfg} {tc : Bool} {n pc qc k : Bytes} {d : JVal}
    (hn : IsStrBody n) (hl : n.length < 2 ^ 63) (hp : PlainName n ∨ t.escNames = true) (hpc : IsWs pc) (hqc : IsWs qc)
    (hd : d.WFt tc) :
    parseName t (chQuote :: (n ++ chQuote :: (pc ++ chColon :: (qc ++ (d.text ++ k))))) = .ok (n, d.text ++ k) := by
  have hnm := trimEndOfName_ck (cfg := t.cfg) (text_nonsp hd k) hpc hqc
  rw [trimChecked_text d hd] at hnm
  have hnp : (2 : Nat) ^ 63 < npos := by decide
  unfold parseName
  cases he : t.escNames with
  | true =>
    have h1 := skipString_body t.cfg hn (by omega) (pc ++ chColon :: (qc ++ (d.text ++ k)))
    unfold skipString at h1
    have h2 : assertWeak t.cfg.checked (!(n ++ chQuote :: (pc ++ chColon :: (qc ++ (d.text ++ k)))).isEmpty)
        .invalidString = .ok () := by
      have : (n ++ chQuote :: (pc ++ chColon :: (qc ++ (d.text ++ k)))).isEmpty = false := by simp
      rw [this]; exact assertWeak_tt _ _
    simp only [beq_self_eq_true, ensure_true, Res.ok_bind, h2] at h1
    have h3 : skipStringNq t.cfg (n ++ chQuote :: (pc ++ chColon :: (qc ++ (d.text ++ k))))
        = .ok ({ text := n, counter := firstEsc n }, pc ++ chColon :: (qc ++ (d.text ++ k))) := by
      revert h1
      cases skipStringNq t.cfg (n ++ chQuote :: (pc ++ chColon :: (qc ++ (d.text ++ k)))) <;> simp
    simp only [assertWeak_tt, headIs, beq_self_eq_true, Res.ok_bind, deref_cons, if_true,
      List.tail_cons, h3, hnm]
  | false =>
    have hp : PlainName n := by rcases hp with h | h; exact h; rw [he] at h; simp at h
    have hlast : (n.getLast? != some chBslash) = true := by
      simp only [bne_iff_ne, ne_eq]
      intro h
      exact hp (List.mem_of_getLast? h)
    simp [assertWeak_tt, headIs, toQuote_plain (strBody_no_quote hn hp), hlast, hnm]

/-- Names are compared in full, or the name has the hash of a mapped name only if it is that name. -/
def NameOk (t : TCfg) (N : List Bytes) (n : Bytes) : Prop :=
  fullMatch t N = true ∨ ∀ m ∈ N, nameHash false n = nameHash false m → n = m

theorem findFrom_absent {full : Bool} {key : Bytes} {N : List Bytes} {n : Nat}
    (hf : full = false → ∀ m ∈ N, nameHash false key = nameHash false m → key = m) (h : key ∉ N) :
    findFrom full (nameHash false key) key n N = n + N.length := by
  induction N generalizing n with
  | nil => rfl
  | cons m N ih =>
    simp only [List.mem_cons, not_or] at h
    unfold findFrom
    rw [if_neg, ih (fun hh m' hm => hf hh m' (List.mem_cons_of_mem _ hm)) h.2, List.length_cons]
    · omega
    · rintro ⟨h1, h2 | h2⟩
      · exact h.1 (hf h2 m (by simp) h1.symm)
      · exact h.1 h2

theorem findFrom_present {full : Bool} {key : Bytes} {N : List Bytes} {n k : Nat}
    (hf : full = false → ∀ m ∈ N, nameHash false key = nameHash false m → key = m) (hk : N[k]? = some key)
    (hnd : N.Nodup) :
    findFrom full (nameHash false key) key n N = n + k := by
  induction N generalizing n k with
  | nil => simp at hk
  | cons m N ih =>
    unfold findFrom
    cases k with
    | zero =>
      simp only [List.getElem?_cons_zero, Option.some.injEq] at hk
      subst hk
      simp
    | succ k =>
      simp only [List.getElem?_cons_succ] at hk
      rw [List.nodup_cons] at hnd
      have hne : key ≠ m := by
        rintro rfl
        exact hnd.1 (List.mem_of_getElem? hk)
      rw [if_neg, ih (fun hh m' hm => hf hh m' (List.mem_cons_of_mem _ hm)) hk hnd.2]
      · omega
      · rintro ⟨h1, h2 | h2⟩
        · exact hne (hf h2 m (by simp) h1.symm)
        · exact hne h2

theorem findName_present {t : TCfg} {N : List Bytes} {pos k : Nat} {key : Bytes} (hok : NameOk t N key)
    (hnd : N.Nodup) (hk : N[k]? = some key) (hp : pos ≤ k) : findName t N pos key = k := by
  unfold findName
  rw [nameHash_long]
  rw [findFrom_present (k := k - pos) _ _ (hnd.sublist (List.drop_sublist _ _))]
  · omega
  · intro hf m hm
    rcases hok with h | h
    · rw [h] at hf; simp at hf
    · exact h m (List.mem_of_mem_drop hm)
  · rw [List.getElem?_drop, show pos + (k - pos) = k by omega, hk]

theorem findName_absent {t : TCfg} {N : List Bytes} {pos : Nat} {key : Bytes} (hok : NameOk t N key)
    (hk : key ∉ N.drop pos) (hp : pos ≤ N.length) : findName t N pos key = N.length := by
  unfold findName
  rw [nameHash_long]
  rw [findFrom_absent _ hk, List.length_drop]
  · omega
  · intro hf m hm
    rcases hok with h | h
    · rw [h] at hf; simp at hf
    · exact h m (List.mem_of_mem_drop hm)

/-! ## Looking names up -/

theorem JMems_get?_cons (pre n pc qc : Bytes) (d : JVal) (post : Bytes) (tl : JMems) (m : Bytes) :
    (JMems.cons pre n pc qc d post tl).get? m = if m = n then some d else tl.get? m := by
  simp only [JMems.get?, JMems.toList, List.lookup_cons]
  by_cases h : m = n
  · simp [h]
  · have : (m == n) = false := by simpa using h
    rw [this]
    simp [h]

theorem JMems_get?_none {ms : JMems} {m : Bytes} : ms.get? m = none ↔ m ∉ ms.names := by
  match ms with
  | .nil => simp [JMems.get?, JMems.names, JMems.toList]
  | .cons pre n pc qc d post tl =>
    rw [JMems_get?_cons]
    have ih := JMems_get?_none (ms := tl) (m := m)
    by_cases h : m = n
    · simp [h, JMems.names, JMems.toList]
    · simp only [if_neg h, ih]
      simp [h, JMems.names, JMems.toList]

theorem JMems_names_cons (pre n pc qc : Bytes) (d : JVal) (post : Bytes) (tl : JMems) :
    (JMems.cons pre n pc qc d post tl).names = n :: tl.names := rfl

/-! ## Skipping a value and storing its range -/

theorem Nonsp.room {cfg : Cfg} {k : Bytes} (h : Nonsp k) (hk : AfterValue k) : Room' cfg k := by
  intro _ h0
  rw [← trimChecked_after hk] at h0
  exact h h0

theorem Nonsp.ne {k : Bytes} (h : Nonsp k) : k ≠ [] := by
  rintro rfl
  exact h rfl

theorem skipValue_number (cfg : Cfg) (kq : Bool) {t : Bytes} (ht : IsNumber t) (c : Bytes) :
    skipValue cfg kq (t ++ c) = skipNumber cfg (t ++ c) := by
  obtain ⟨x, t', rfl, hx⟩ : ∃ x t', t = x :: t' ∧ (x = chMinus ∨ IsDig x) := by
    obtain ⟨m, i, f, e, hm, hi, _, _, rfl⟩ := ht
    obtain ⟨y, i', rfl, hy⟩ := isDigits_head (isInt_digits hi)
    rcases hm with rfl | rfl
    · exact ⟨y, _, rfl, Or.inr hy⟩
    · exact ⟨_, _, rfl, Or.inl rfl⟩
  rw [← isDigit_iff] at hx
  have hne : x ≠ chQuote ∧ x ≠ chLBrack ∧ x ≠ chLBrace ∧ x ≠ chT ∧ x ≠ chF ∧ x ≠ chN := by
    rcases hx with rfl | hx
    · decide
    · refine ⟨?_, ?_, ?_, ?_, ?_, ?_⟩ <;> rintro rfl <;> revert hx <;> decide
  rw [List.cons_append]
  unfold skipValue
  rw [List.isEmpty_cons, Bool.not_false, assertWeak_tt, Res.ok_bind, deref_cons, Res.ok_bind]
  simp only [hne, if_false]
  rw [if_pos hx]

theorem skipValue_stored {cfg : Cfg} {tc : Bool} {d : JVal} (hd : d.WFt tc)
    (hdep : d.depth < 4294967296) (hlen : d.text.length < 2 ^ 63) {k : Bytes} (hk : AfterValue k) (hns : Nonsp k) :
    ∃ r b, skipValue cfg false (d.text ++ k) = .ok (r, b) ∧ TrimEq b k ∧
      (d = .null ∧ r.null = true ∨ Stored d (markRange (d.text ++ k) r) (afterRange (d.text ++ k) r)) := by
  obtain ⟨r, h1, h2, h3, h4⟩ := skipValue_exact cfg false d hd hdep k hk (hns.room hk).room
    (fun _ => hns.room hk) (fun _ => hns.ne)
  refine ⟨r, _, h1, ?_, ?_⟩
  · split
    · exact dropWs_trimEq k
    · exact TrimEq.refl k
  · by_cases hnull : d = .null
    · exact Or.inl ⟨hnull, h3.2 hnull⟩
    · have hq : ∀ x, d = .num x → headIs (· == chQuote) d.text = false := by
        rintro x rfl
        obtain ⟨c, cs, hc, -⟩ := text_head (.num x) hd
        simp only [JVal.text] at hc ⊢
        subst hc
        have hn : IsNumber (c :: cs) := by simpa [JVal.WFt] using hd
        have := number_neutral hn c (by simp)
        unfold Neutral at this
        simp [headIs, this.2.1]
      have hk' : ∀ x, d = .num x → afterRange (d.text ++ k) r = k := by
        rintro x rfl
        obtain ⟨c, cs, hc, -⟩ := text_head (.num x) hd
        have hh : headIs (· == chQuote) ((JVal.num x).text ++ k) = headIs (· == chQuote) (JVal.num x).text := by simp [hc, headIs]
        simp only [afterRange, hh, h2, hq x rfl]
        simp [rangeText]
      refine Or.inr ⟨hnull, h2, ?_, ?_, ?_, h4, ?_, ?_, fun x hx => by rw [hk' x hx]; exact hk⟩
      · change r.null = false
        cases hh : r.null with
        | true => exact absurd (h3.1 hh) hnull
        | false => rfl
      · rintro b rfl
        have hb : IsStrBody b := by simpa only [JVal.WFt] using hd
        have hnp : (2 : Nat) ^ 63 < npos := by decide
        have hlb : b.length < 2 ^ 63 := by
          simp only [JVal.text, List.length_cons, List.length_append, List.length_nil] at hlen
          omega
        have hs := skipString_body cfg hb (by omega) k
        have ht : (JVal.str b).text ++ k = chQuote :: (b ++ chQuote :: k) := by simp [JVal.text]
        rw [ht] at h1 ⊢
        unfold skipValue at h1
        simp only [assertWeak_tt, List.isEmpty_cons, Bool.not_false, Res.ok_bind, deref_cons,
          if_true, hs, Res.ok.injEq, Prod.mk.injEq] at h1
        obtain ⟨rfl, -⟩ := h1
        exact ⟨rfl, k, by simp [afterRange, headIs]⟩
      · obtain ⟨c, cs, hc, -⟩ := text_head d hd
        simp only [markRange, hc, List.cons_append, headIs]
      · obtain ⟨c, cs, hc, -⟩ := text_head d hd
        have hh : headIs (· == chQuote) (d.text ++ k) = headIs (· == chQuote) d.text := by simp [hc, headIs]
        simp only [afterRange, hh, h2]
        cases d with
        | null => exact absurd rfl hnull
        | str b =>
          have : (JVal.str b).text ++ k = (chQuote :: b) ++ chQuote :: k := by simp [JVal.text]
          rw [this]
          simp only [JVal.text, headIs, beq_self_eq_true, if_true, rangeText, Bool.false_eq_true, if_false]
          rw [show b.length + 1 = (chQuote :: b).length from rfl, List.drop_left]
          exact trimChecked_ne (by decide) [] k
        | tru => simpa [rangeText, JVal.text, headIs] using hns
        | fls => simpa [rangeText, JVal.text, headIs] using hns
        | num x =>
          have hf : headIs (· == chQuote) (JVal.num x).text = false := by
            simp only [JVal.text] at hc ⊢
            subst hc
            have hn : IsNumber (c :: cs) := by simpa [JVal.WFt] using hd
            have := number_neutral hn c (by simp)
            unfold Neutral at this
            simp [headIs, this.2.1]
          rw [hf]
          simpa [rangeText] using hns
        | arr w es => cases es <;> simpa [rangeText, JVal.text, headIs] using hns
        | obj w es => cases es <;> simpa [rangeText, JVal.text, headIs] using hns
      · rintro neg i f x rfl hi hf hx
        have hs := skipNumber_range cfg neg i f x k hi hf hx (numEnd_after hk) (hns.room hk).room
        have hv := skipValue_number cfg false (by simpa [JVal.WFt] using hd) k
        simp only [JVal.text] at h1
        rw [hv] at h1
        rw [show (if neg then [chMinus] else []) ++ (i ++ (f ++ x)) = (numRange neg i f x).text from rfl, hs] at h1
        cases h1
        exact ⟨rfl, rfl⟩

/-! ## The search for a member -/

/-- The state of the search: `full` are all members of the object, `rest` those not passed yet. -/
structure CInv (t : TCfg) (tc exact : Bool) (N : List Bytes) (pos : Nat) (full rest : JMems) (locs : Locs) : Prop where
  len : locs.length = N.length
  wf : rest.WFt tc
  depth : rest.depth < 4294967295
  size : rest.text.length < 2 ^ 63
  ok : ∀ n ∈ rest.names, NameOk t N n ∧ (PlainName n ∨ t.escNames = true)
  once : ∀ n ∈ N, rest.names.count n ≤ 1
  left : exact = true → ∀ n ∈ rest.names, n ∈ N.drop pos
  ahead : ∀ k n d, pos ≤ k → N[k]? = some n → rest.get? n = some d → full.get? n = some d ∧ locs[k]? = some none
  behind : ∀ k n, pos ≤ k → N[k]? = some n → rest.get? n = none →
    (full.get? n = none ∧ locs[k]? = some none) ∨
    (∃ d, full.get? n = some d ∧ d = .null ∧ locs[k]? = some none) ∨
    (∃ d r a, full.get? n = some d ∧ locs[k]? = some (some (r, a)) ∧ Stored d r a)

theorem CInv.mono {t : TCfg} {tc exact : Bool} {N : List Bytes} {pos : Nat} {full rest : JMems} {locs : Locs}
    (h : CInv t tc exact N pos full rest locs) (hl : exact = true → ∀ n ∈ rest.names, n ∈ N.drop (pos + 1)) :
    CInv t tc exact N (pos + 1) full rest locs :=
  { h with
    left := hl
    ahead := fun k n d hk => h.ahead k n d (by omega)
    behind := fun k n hk => h.behind k n (by omega) }

theorem mem_drop_succ {N : List Bytes} {pos : Nat} {n m : Bytes} (hm : m ∈ N.drop pos) (hn : N[pos]? = some n)
    (h : m ≠ n) : m ∈ N.drop (pos + 1) := by
  obtain ⟨hlt, hg⟩ := List.getElem?_eq_some_iff.1 hn
  rw [List.drop_eq_getElem_cons hlt, hg] at hm
  rcases List.mem_cons.1 hm with rfl | hm
  · exact absurd rfl h
  · exact hm

/-- Passing a member of the object. -/
theorem CInv.step {t : TCfg} {tc exact : Bool} {N : List Bytes} {pos : Nat} {full tl : JMems} {locs : Locs}
    {pre n pc qc : Bytes} {d : JVal} {post : Bytes}
    (h : CInv t tc exact N pos full (.cons pre n pc qc d post tl) locs) (locs' : Locs) (hlen : locs'.length = N.length)
    (hl : ∀ k m, pos ≤ k → N[k]? = some m → m ≠ n → locs'[k]? = locs[k]?)
    (hn : ∀ k, pos ≤ k → N[k]? = some n →
      (d = .null ∧ locs'[k]? = some none) ∨ ∃ r a, locs'[k]? = some (some (r, a)) ∧ Stored d r a) :
    CInv t tc exact N pos full tl locs' := by
  have hnn : n ∈ N → n ∉ tl.names := by
    intro hN hm
    have := h.once n hN
    rw [JMems_names_cons, List.count_cons_self] at this
    have := List.count_pos_iff.2 hm
    omega
  have hwf := h.wf
  have hdep := h.depth
  have hsz := h.size
  simp only [JMems.WFt] at hwf
  simp only [JMems.depth] at hdep
  simp only [JMems.text, List.length_cons, List.length_append] at hsz
  refine ⟨hlen, hwf.2.2.2.2.2.2, by omega, by omega, ?_, ?_, ?_, ?_, ?_⟩
  · intro m hm
    exact h.ok m (by rw [JMems_names_cons]; exact List.mem_cons_of_mem _ hm)
  · intro m hm
    have := h.once m hm
    rw [JMems_names_cons, List.count_cons] at this
    omega
  · intro he m hm
    exact h.left he m (by rw [JMems_names_cons]; exact List.mem_cons_of_mem _ hm)
  · intro k m d' hk hm hg
    have hmn : m ≠ n := by
      rintro rfl
      have := JMems_get?_none.2 (hnn (List.mem_of_getElem? hm))
      rw [this] at hg
      simp at hg
    have := h.ahead k m d' hk hm (by rw [JMems_get?_cons, if_neg hmn]; exact hg)
    rw [hl k m hk hm hmn]
    exact this
  · intro k m hk hm hg
    by_cases hmn : m = n
    · subst hmn
      have := h.ahead k m d hk hm (by rw [JMems_get?_cons, if_pos rfl])
      rcases hn k hk hm with ⟨h1, h2⟩ | ⟨r, a, h1, h2⟩
      · exact Or.inr (Or.inl ⟨d, this.1, h1, h2⟩)
      · exact Or.inr (Or.inr ⟨d, r, a, this.1, h1, h2⟩)
    · rw [hl k m hk hm hmn]
      exact h.behind k m hk hm (by rw [JMems_get?_cons, if_neg hmn]; exact hg)

theorem setLoc_get_ne {locs : Locs} {n k : Nat} {r : Range} {a : Bytes} (h : n ≠ k) :
    (setLoc locs n r a)[k]? = locs[k]? := by
  unfold setLoc
  rw [List.getElem?_set_ne h]

theorem setLoc_get {locs : Locs} {n : Nat} {r : Range} {a : Bytes} (h : n < locs.length) :
    (setLoc locs n r a)[n]? = some (if r.null then none else some (r, a)) := by
  unfold setLoc
  rw [List.getElem?_set_self h]

theorem nodup_getElem?_inj {N : List Bytes} (h : N.Nodup) {i j : Nat} {n : Bytes} (hi : N[i]? = some n)
    (hj : N[j]? = some n) : i = j := by
  induction N generalizing i j with
  | nil => simp at hi
  | cons m N ih =>
    rw [List.nodup_cons] at h
    cases i <;> cases j
    · rfl
    · simp only [List.getElem?_cons_zero, List.getElem?_cons_succ, Option.some.injEq] at hi hj
      subst hi
      exact absurd (List.mem_of_getElem? hj) h.1
    · simp only [List.getElem?_cons_zero, List.getElem?_cons_succ, Option.some.injEq] at hi hj
      subst hj
      exact absurd (List.mem_of_getElem? hi) h.1
    · simp only [List.getElem?_cons_succ] at hi hj
      rw [ih h.2 hi hj]

theorem trimChecked_split (bs : Bytes) : ∃ u, bs = u ++ trimChecked bs ∧ ∀ x ∈ u, isSpace x = true := by
  induction bs with
  | nil => exact ⟨[], rfl, by simp⟩
  | cons c cs ih =>
    unfold trimChecked
    split <;> rename_i hc
    · obtain ⟨u, h1, h2⟩ := ih
      refine ⟨c :: u, by rw [List.cons_append, ← h1], ?_⟩
      intro x hx
      rcases List.mem_cons.1 hx with rfl | hx
      · simpa using hc
      · exact h2 x hx
    · exact ⟨[], rfl, by simp⟩

/-- In front of the next member there are whitespace and commas only. -/
theorem moveNextChecked_split (bs : Bytes) :
    ∃ u, bs = u ++ moveNextChecked bs ∧ ∀ x ∈ u, isSpace x = true ∨ x = chComma := by
  obtain ⟨u, h1, h2⟩ := trimChecked_split bs
  unfold moveNextChecked
  cases ht : trimChecked bs with
  | nil => exact ⟨u, by rw [ht] at h1; exact h1, fun x hx => Or.inl (h2 x hx)⟩
  | cons c cs =>
    rw [ht] at h1
    simp only
    split <;> rename_i hc
    · obtain ⟨u', h3, h4⟩ := trimChecked_split cs
      refine ⟨u ++ c :: u', by rw [List.append_assoc, List.cons_append, ← h3]; exact h1, ?_⟩
      intro x hx
      rcases List.mem_append.1 hx with hx | hx
      · exact Or.inl (h2 x hx)
      · rcases List.mem_cons.1 hx with rfl | hx
        · exact Or.inr hc
        · exact Or.inl (h4 x hx)
    · exact ⟨u, h1, fun x hx => Or.inl (h2 x hx)⟩

/-- The unchecked search for the next quote finds the next member if there is one. -/
theorem moveNextMember_of {b : Bytes} {cs : Bytes} (h : moveNextChecked b = chQuote :: cs) :
    moveNextMemberUnchecked b = .ok (chQuote :: cs) := by
  obtain ⟨u, h1, h2⟩ := moveNextChecked_split b
  rw [h] at h1
  have hq : chQuote ∉ u := by
    intro hx
    rcases h2 _ hx with h | h
    · revert h; decide
    · revert h; decide
  unfold moveNextMemberUnchecked
  rw [h1, toQuote_plain hq]
  rfl

/-- The members of one list, then those of the other. -/
def _root_.Verif.Spec.JMems.app : JMems → JMems → JMems
  | .nil, b => b
  | .cons pre n pc qc d post tl, b => .cons pre n pc qc d post (tl.app b)

theorem _root_.Verif.Spec.JMems.app_assoc (a b c : JMems) : (a.app b).app c = a.app (b.app c) := by
  match a with
  | .nil => rfl
  | .cons .. => simp only [JMems.app]; rw [JMems.app_assoc]

theorem _root_.Verif.Spec.JMems.app_nil (a : JMems) : a.app .nil = a := by
  match a with
  | .nil => rfl
  | .cons .. => simp only [JMems.app]; rw [JMems.app_nil]

/-- `a` is what follows the value of the member `n` of the object. -/
def At (full : JMems) (w k n a : Bytes) : Prop :=
  ∃ (U : JMems) (pre pc qc : Bytes) (d : JVal) (post : Bytes) (tl : JMems), full = U.app (.cons pre n pc qc d post tl) ∧ ((∀ b, d ≠ .str b) → a = objAfter post tl w k)

/-- The positions stored are those in the object. -/
def AtAll (full : JMems) (w k : Bytes) (N : List Bytes) (locs : Locs) : Prop :=
  ∀ (j : Nat) n r a, N[j]? = some n → locs[j]? = some (some (r, a)) → At full w k n a

theorem afterRange_of {tc : Bool} {d : JVal} (hd : d.WFt tc) (hs : ∀ b, d ≠ .str b) {r : Range} {a k : Bytes}
    (h : Stored d (markRange (d.text ++ k) r) a) : afterRange (d.text ++ k) r = k := by
  have ht : r.text = d.text := by
    have := h.2.1
    match d with
    | .null => exact absurd rfl h.1
    | .str b => exact absurd rfl (hs b)
    | .tru | .fls | .num _ | .arr .. | .obj .. => exact this
  have hq : headIs (· == chQuote) (d.text ++ k) = false := by
    match d with
    | .null => exact absurd rfl h.1
    | .str b => exact absurd rfl (hs b)
    | .tru | .fls => rfl
    | .arr w es => cases es <;> simp [JVal.text, headIs]
    | .obj w ms => cases ms <;> simp [JVal.text, headIs]
    | .num x =>
      obtain ⟨c, cs, hc, -⟩ := text_head (.num x) hd
      simp only [JVal.text] at hc ⊢
      subst hc
      have hn : IsNumber (c :: cs) := by simpa [JVal.WFt] using hd
      have := number_neutral hn c (by simp)
      unfold Neutral at this
      simp [headIs, this.2.1]
  unfold afterRange
  rw [hq, ht]
  simp

/-- What the search for `nm` at `pos` gives, with the positions. -/
theorem findLoop_pos {t : TCfg} {tc exact : Bool} {N : List Bytes} (hnd : N.Nodup)
    {pos : Nat} {nm : Bytes} (hpos : N[pos]? = some nm) {full : JMems} {w k : Bytes} (hw : IsTail tc w) :
    ∀ (rest : JMems) (locs : Locs), CInv t tc exact N pos full rest locs →
      (∀ d, rest.get? nm = some d → ∃ locs' post tl,
        findLoop t exact N pos locs (objRest w k rest) = .ok (.here, locs', d.text ++ objAfter post tl w k) ∧
        IsWs post ∧ d.WFt tc ∧ CInv t tc exact N (pos + 1) full tl locs' ∧
        (∃ (V : JMems) (pre pc qc : Bytes), rest = V.app (.cons pre nm pc qc d post tl)) ∧
        (∀ U : JMems, full = U.app rest → AtAll full w k N locs → AtAll full w k N locs')) ∧
      (t.cfg.checked = true → rest.get? nm = none → ∃ locs',
        findLoop t exact N pos locs (objRest w k rest) = .ok (.absent, locs', chRBrace :: k) ∧
        CInv t tc exact N (pos + 1) full .nil locs' ∧
        (∀ U : JMems, full = U.app rest → AtAll full w k N locs → AtAll full w k N locs'))
  | .nil, locs, hi => by
    refine ⟨by simp [JMems.get?, JMems.toList], fun _ _ => ⟨locs, ?_, hi.mono (by simp [JMems.names, JMems.toList]), fun _ _ h => h⟩⟩
    rw [findLoop.eq_def]
    simp [objRest]
  | .cons pre n pc qc d post tl, locs, hi => by
    have hwf := hi.wf
    have hdep := hi.depth
    have hsz := hi.size
    simp only [JMems.WFt] at hwf
    obtain ⟨-, hn, hpc, hqc, hd, hpost, htl⟩ := hwf
    simp only [JMems.depth] at hdep
    simp only [JMems.text, List.length_cons, List.length_append] at hsz
    obtain ⟨hok, hpl⟩ := hi.ok n (by simp [JMems_names_cons])
    have hplt : pos < N.length := (List.getElem?_eq_some_iff.1 hpos).1
    have hname := parseName_ck (t := t) (k := objAfter post tl w k) hn (by omega) hpl hpc hqc hd
    have hobj : objRest w k (.cons pre n pc qc d post tl)
        = chQuote :: (n ++ chQuote :: (pc ++ chColon :: (qc ++ (d.text ++ objAfter post tl w k)))) := rfl
    obtain ⟨r, b, hsk, htr, hst⟩ := skipValue_stored (cfg := t.cfg) hd (by omega) (by omega)
      (objAfter_after (tl := tl) (k := k) hpost hw) (objAfter_nonsp _ _ _ _)
    have hmv : moveNextChecked b = objRest w k tl := by
      rw [moveNextChecked_trimEq htr, moveNext_obj hpost htl hw]
    have hlt : (objRest w k tl).length < (objRest w k (.cons pre n pc qc d post tl)).length := by
      have := objRest_length w k post tl
      rw [hobj]
      simp only [List.length_append, List.length_cons]
      omega
    rw [JMems_get?_cons]
    by_cases hmem : n ∈ N.drop pos
    · obtain ⟨j, hj⟩ := List.getElem?_of_mem hmem
      rw [List.getElem?_drop] at hj
      have hfn := findName_present hok hnd hj (by omega : pos ≤ pos + j)
      have hjlt : pos + j < N.length := (List.getElem?_eq_some_iff.1 hj).1
      by_cases hnm : nm = n
      · -- found
        subst hnm
        have hj0 := nodup_getElem?_inj hnd hj hpos
        have hnN : nm ∉ tl.names := by
          intro hm
          have := hi.once nm (List.mem_of_getElem? hpos)
          rw [JMems_names_cons, List.count_cons_self] at this
          have := List.count_pos_iff.2 hm
          omega
        rw [if_pos rfl]
        refine ⟨?_, by simp⟩
        rintro d' hdd
        obtain rfl : d = d' := by simpa using hdd
        refine ⟨locs, post, tl, ?_, hpost, hd, ?_, ⟨.nil, pre, pc, qc, rfl⟩, fun _ _ h => h⟩
        · rw [findLoop.eq_def, hobj]
          simp only [hname, Res.ok_bind]
          rw [if_neg (by decide), hfn, hj0]
          rw [if_neg (by omega), if_neg (by omega), if_pos rfl]
        · -- the search state without the member at `pos`
          have hwf' := hi.wf
          simp only [JMems.WFt] at hwf'
          refine ⟨hi.len, htl, by omega, by omega, ?_, ?_, ?_, ?_, ?_⟩
          · exact fun m hm => hi.ok m (by rw [JMems_names_cons]; exact List.mem_cons_of_mem _ hm)
          · intro m hm
            have := hi.once m hm
            rw [JMems_names_cons, List.count_cons] at this
            omega
          · intro he m hm
            refine mem_drop_succ (hi.left he m (by rw [JMems_names_cons]; exact List.mem_cons_of_mem _ hm)) hpos ?_
            rintro rfl
            exact hnN hm
          · intro i m d' hk hm hg
            have : m ≠ nm := by rintro rfl; rw [JMems_get?_none.2 hnN] at hg; simp at hg
            exact hi.ahead i m d' (by omega) hm (by rw [JMems_get?_cons, if_neg this]; exact hg)
          · intro i m hk hm hg
            have : m ≠ nm := by rintro rfl; have := nodup_getElem?_inj hnd hm hpos; omega
            exact hi.behind i m (by omega) hm (by rw [JMems_get?_cons, if_neg this]; exact hg)
      · -- a member to be remembered
        rw [if_neg hnm]
        have hjne : pos + j ≠ pos := by
          intro h
          rw [h, hpos] at hj
          exact hnm (by simpa using hj)
        have hstep := hi.step (setLoc locs (pos + j) (markRange (d.text ++ objAfter post tl w k) r)
            (afterRange (d.text ++ objAfter post tl w k) r))
          (by rw [setLoc, List.length_set]; exact hi.len)
          (fun i m hk hm hmn => setLoc_get_ne (by
            rintro rfl
            rw [hj] at hm
            exact hmn (by simpa using hm.symm)))
          (fun i hk hm => by
            obtain rfl := nodup_getElem?_inj hnd hm hj
            rw [setLoc_get (by rw [hi.len]; exact hjlt)]
            rcases hst with ⟨h1, h2⟩ | h
            · exact Or.inl ⟨h1, by simp [markRange, h2]⟩
            · exact Or.inr ⟨_, _, by simp [h.2.2.1], h⟩)
        have ih := findLoop_pos hnd hpos (k := k) hw tl _ hstep
        have hat : ∀ U : JMems, full = U.app (.cons pre n pc qc d post tl) → AtAll full w k N locs →
            AtAll full w k N (setLoc locs (pos + j) (markRange (d.text ++ objAfter post tl w k) r)
              (afterRange (d.text ++ objAfter post tl w k) r)) := by
          intro U hU hA i m r' a' hm hl
          by_cases hij : pos + j = i
          · subst hij
            obtain rfl : n = m := by rw [hj] at hm; simpa using hm
            rw [setLoc_get (by rw [hi.len]; exact hjlt)] at hl
            rcases hst with ⟨-, h2⟩ | h
            · simp [markRange, h2] at hl
            · simp only [h.2.2.1, Bool.false_eq_true, if_false, Option.some.injEq, Prod.mk.injEq] at hl
              exact ⟨U, pre, pc, qc, d, post, tl, hU, fun hs => by rw [← hl.2, afterRange_of hd hs h]⟩
          · rw [setLoc_get_ne hij] at hl
            exact hA i m r' a' hm hl
        have hgo : (t.cfg.checked = true ∨ tl ≠ .nil) →
            (if t.cfg.checked = false ∧ pos + j + 1 < N.length then moveNextMemberUnchecked b else moveNext t.cfg b)
              = .ok (objRest w k tl) := by
          intro hor
          split <;> rename_i hc
          · match tl, hor with
            | .nil, hor => rcases hor with h | h <;> simp [hc.1] at h
            | .cons .., _ => exact moveNextMember_of hmv
          · exact moveNext_of hmv (objRest_ne _ _ _)
        have hred : (t.cfg.checked = true ∨ tl ≠ .nil) → findLoop t exact N pos locs (objRest w k (.cons pre n pc qc d post tl))
            = findLoop t exact N pos
                (setLoc locs (pos + j) (markRange (d.text ++ objAfter post tl w k) r)
            (afterRange (d.text ++ objAfter post tl w k) r))
                (objRest w k tl) := by
          intro hor
          rw [hobj] at hlt ⊢
          rw [findLoop.eq_def]
          simp only [hname, Res.ok_bind]
          rw [if_neg (by decide), hfn]
          rw [if_neg (by omega), if_neg (by omega), if_neg hjne]
          have hgo := hgo hor
          simp only [hsk, Res.ok_bind]
          split at hgo <;> rename_i hc
          · rw [if_pos hc]
            simp only [hgo, Res.ok_bind]
            rw [dif_pos hlt]
          · rw [if_neg hc]
            simp only [hgo, Res.ok_bind]
            rw [dif_pos hlt]
        refine ⟨fun d' hd' => ?_, fun hck hg => ?_⟩
        · rw [hred (Or.inr (by rintro rfl; simp [JMems.get?, JMems.toList] at hd'))]
          obtain ⟨locs', post', tl', h1, h2, h3, h4, ⟨V, p1, p2, p3, h5⟩, h6⟩ := ih.1 d' hd'
          exact ⟨locs', post', tl', h1, h2, h3, h4, ⟨.cons pre n pc qc d post V, p1, p2, p3, by simp only [JMems.app, ← h5]⟩,
            fun U hU hA => h6 (U.app (.cons pre n pc qc d post .nil)) (by rw [JMems.app_assoc]; exact hU) (hat U hU hA)⟩
        · rw [hred (Or.inl hck)]
          obtain ⟨locs', h1, h2, h3⟩ := ih.2 hck hg
          exact ⟨locs', h1, h2, fun U hU hA => h3 (U.app (.cons pre n pc qc d post .nil)) (by rw [JMems.app_assoc]; exact hU) (hat U hU hA)⟩
    · -- an unmapped member
      have hfn := findName_absent hok hmem (by omega)
      have hnm : nm ≠ n := by
        rintro rfl
        refine hmem ?_
        rw [List.drop_eq_getElem_cons hplt]
        have := (List.getElem?_eq_some_iff.1 hpos).2
        simp [this]
      rw [if_neg hnm]
      have hex : ¬ (exact = true) := fun he => hmem (hi.left he n (by simp [JMems_names_cons]))
      have hstep := hi.step locs hi.len (fun _ _ _ _ _ => rfl) (fun i hk hm => by
        exfalso
        refine hmem ?_
        have : (N.drop pos)[i - pos]? = some n := by
          rw [List.getElem?_drop, show pos + (i - pos) = i by omega, hm]
        exact List.mem_of_getElem? this)
      have ih := findLoop_pos hnd hpos (k := k) hw tl _ hstep
      have hred : findLoop t exact N pos locs (objRest w k (.cons pre n pc qc d post tl))
          = findLoop t exact N pos locs (objRest w k tl) := by
        rw [hobj] at hlt ⊢
        rw [findLoop.eq_def]
        simp only [hname, Res.ok_bind]
        rw [if_neg (by decide), hfn]
        rw [if_neg (fun h => hex h.1), if_pos (Nat.le_refl _)]
        simp only [hsk, Res.ok_bind, moveNext_of hmv (objRest_ne _ _ _)]
        rw [dif_pos hlt]
      rw [hred]
      refine ⟨fun d' hd' => ?_, fun hck hg => ?_⟩
      · obtain ⟨locs', post', tl', h1, h2, h3, h4, ⟨V, p1, p2, p3, h5⟩, h6⟩ := ih.1 d' hd'
        exact ⟨locs', post', tl', h1, h2, h3, h4, ⟨.cons pre n pc qc d post V, p1, p2, p3, by simp only [JMems.app, ← h5]⟩,
          fun U hU => h6 (U.app (.cons pre n pc qc d post .nil)) (by rw [JMems.app_assoc]; exact hU)⟩
      · obtain ⟨locs', h1, h2, h3⟩ := ih.2 hck hg
        exact ⟨locs', h1, h2, fun U hU => h3 (U.app (.cons pre n pc qc d post .nil)) (by rw [JMems.app_assoc]; exact hU)⟩

/-- What the search for `nm` at `pos` gives. -/
theorem findLoop_sem {t : TCfg} {tc exact : Bool} {N : List Bytes} (hnd : N.Nodup)
    {pos : Nat} {nm : Bytes} (hpos : N[pos]? = some nm) {full : JMems} {w k : Bytes} (hw : IsTail tc w)
    (rest : JMems) (locs : Locs) (hi : CInv t tc exact N pos full rest locs) :
    (∀ d, rest.get? nm = some d → ∃ locs' post tl,
      findLoop t exact N pos locs (objRest w k rest) = .ok (.here, locs', d.text ++ objAfter post tl w k) ∧
      IsWs post ∧ d.WFt tc ∧ CInv t tc exact N (pos + 1) full tl locs') ∧
    (t.cfg.checked = true → rest.get? nm = none → ∃ locs',
      findLoop t exact N pos locs (objRest w k rest) = .ok (.absent, locs', chRBrace :: k) ∧
      CInv t tc exact N (pos + 1) full .nil locs') := by
  obtain ⟨h1, h2⟩ := findLoop_pos hnd hpos (k := k) hw rest locs hi
  refine ⟨fun d hd => ?_, fun hck hg => ?_⟩
  · obtain ⟨a, b, c, h3, h4, h5, h6, -⟩ := h1 d hd
    exact ⟨a, b, c, h3, h4, h5, h6⟩
  · obtain ⟨a, h3, h4, -⟩ := h2 hck hg
    exact ⟨a, h3, h4⟩

/-! ## The members of a class -/

/-- The mapped members are read as the values from an object with members `full`.  Without checks none of them is missing
or `null`. -/
def MemSem (ck : Bool) (pU : Ty → Bytes → Res (Val × Bytes)) (pK : Ty → Range → Bytes → Res Val) (full : JMems) :
    List Member → List Val → Prop
  | [], [] => True
  | m :: ms, v :: vs =>
    ((∃ d, full.get? m.name = some d ∧ SemU ck (pU m.ty) d v ∧ SemK (pK m.ty) d v ∧
        (d = .null → ck = true ∧ m.ty.isOpt = true ∧ v = .none)) ∨
      (full.get? m.name = none ∧ ck = true ∧ m.ty.isOpt = true ∧ v = .none)) ∧ MemSem ck pU pK full ms vs
  | _, _ => False

theorem objRest_head (w k : Bytes) (rest : JMems) :
    headIs (fun c => c == chQuote || c == chRBrace) (objRest w k rest) = true := by
  match rest with
  | .nil => rfl
  | .cons .. => rfl

theorem trimUnchecked_objRest (w k : Bytes) (rest : JMems) :
    trimUnchecked (objRest w k rest) = .ok (objRest w k rest) := by
  match rest with
  | .nil => exact trimUnchecked_cons_of_not _ (by decide)
  | .cons .. => exact trimUnchecked_cons_of_not _ (by decide)

/-- `classMembers` on the members `ms`, which can be read, and more. -/
theorem classMembers_prefix {t : TCfg} {tc exact : Bool} {N : List Bytes} (hnd : N.Nodup)
    {pU : Ty → Bytes → Res (Val × Bytes)} {pK : Ty → Range → Bytes → Res Val} {full : JMems} {w k : Bytes}
    (hw : IsTail tc w) (ms₂ : List Member) :
    ∀ (ms : List Member) (vs : List Val) (pos : Nat) (rest : JMems) (locs : Locs) (bs : Bytes),
      N.drop pos = (ms ++ ms₂).map Member.name → CInv t tc exact N pos full rest locs →
      moveNextChecked bs = objRest w k rest → MemSem t.cfg.checked pU pK full ms vs →
      ∃ b rest' locs', classMembers t exact N pU pK pos (ms ++ ms₂) locs bs
          = (classMembers t exact N pU pK (pos + ms.length) ms₂ locs' b >>= fun p => .ok (vs ++ p.1, p.2)) ∧
        moveNextChecked b = objRest w k rest' ∧ CInv t tc exact N (pos + ms.length) full rest' locs'
  | [], [], pos, rest, locs, bs, hN, hi, hb, _ => by
    refine ⟨bs, rest, locs, ?_, hb, hi⟩
    simp only [List.nil_append, List.length_nil, Nat.add_zero]
    cases classMembers t exact N pU pK pos ms₂ locs bs <;> rfl
  | m :: ms, v :: vs, pos, rest, locs, bs, hN, hi, hb, hs => by
    obtain ⟨hm, hs⟩ := hs
    have hpos : N[pos]? = some m.name := by
      have := congrArg (·[0]?) hN
      simpa [List.getElem?_drop] using this
    have hN' : N.drop (pos + 1) = (ms ++ ms₂).map Member.name := by
      rw [← List.drop_drop, hN]; rfl
    obtain ⟨hf1, hf2⟩ := findLoop_sem hnd hpos (k := k) hw rest locs hi
    have hlen : pos + (m :: ms).length = pos + 1 + ms.length := by simp only [List.length_cons]; omega
    rw [hlen]
    conv in classMembers t exact N pU pK pos _ _ _ => unfold classMembers
    simp only [List.cons_append]
    simp only [moveNext_of hb (objRest_ne _ _ _), Res.ok_bind, assertWeak_tt, objRest_head]
    cases hg : rest.get? m.name with
    | some d =>
      -- the value is at the cursor
      obtain ⟨hfull, hloc⟩ := hi.ahead pos m.name d (Nat.le_refl _) hpos hg
      obtain ⟨locs', post, tl, hfl, hpost, hd, hi'⟩ := hf1 d hg
      have hhead : headIs (fun c => c == chRBrace) (objRest w k rest) = false := by
        match rest, hg with
        | .nil, hg => simp [JMems.get?, JMems.toList] at hg
        | .cons .., _ => rfl
      have hsem : SemU t.cfg.checked (pU m.ty) d v := by
        rcases hm with ⟨d', h1, h2, -⟩ | ⟨h1, -⟩
        · rw [hfull] at h1
          obtain rfl : d = d' := by simpa using h1
          exact h2
        · rw [hfull] at h1; simp at h1
      obtain ⟨r, hr, htr⟩ := hsem _ (fun _ => objAfter_follows (tl := tl) (k := k) _ _ hpost hw)
        (fun _ => objAfter_nonsp _ _ _ _)
      have hmv : moveNextChecked r = objRest w k tl := by
        rw [moveNextChecked_trimEq htr, moveNext_obj hpost hi'.wf hw]
      obtain ⟨b, rest', locs'', h1, h2⟩ := classMembers_prefix hnd hw ms₂ ms vs (pos + 1) tl locs' r hN' hi' hmv hs
      refine ⟨b, rest', locs'', ?_, h2⟩
      simp only [findMember, hhead, hloc, Bool.not_false, Bool.or_true, assertWeak_tt,
        Res.ok_bind, trimUnchecked_objRest, Option.join, Option.bind, hfl, hr, h1, id]
      cases classMembers t exact N pU pK (pos + 1 + ms.length) ms₂ locs'' b <;> rfl
    | none =>
      rcases hi.behind pos m.name (Nat.le_refl _) hpos hg with ⟨hfull, hloc⟩ | ⟨d, hfull, rfl, hloc⟩ |
        ⟨d, r, a, hfull, hloc, hst⟩
      · -- no such member
        obtain ⟨hck, hopt, rfl⟩ : t.cfg.checked = true ∧ m.ty.isOpt = true ∧ v = .none := by
          rcases hm with ⟨d', h1, -⟩ | ⟨-, h⟩
          · rw [hfull] at h1; simp at h1
          · exact h
        obtain ⟨locs', hfl, hi'⟩ := hf2 hck hg
        obtain ⟨b, rest', locs'', h1, h2⟩ := classMembers_prefix hnd hw ms₂ ms vs (pos + 1) .nil locs' (chRBrace :: k) hN' hi'
          (moveNext_objRest (w := w) (k := k) .nil) hs
        refine ⟨b, rest', locs'', ?_, h2⟩
        simp only [findMember, hloc, hopt, Bool.true_or, assertWeak_tt,
          Res.ok_bind, trimUnchecked_objRest, Option.join, Option.bind, hfl, if_true, h1, id]
        cases classMembers t exact N pU pK (pos + 1 + ms.length) ms₂ locs'' b <;> rfl
      · -- the member was `null`
        obtain ⟨hck, hopt, rfl⟩ : t.cfg.checked = true ∧ m.ty.isOpt = true ∧ v = .none := by
          rcases hm with ⟨d', h1, -, -, h⟩ | ⟨h1, -⟩
          · rw [hfull] at h1
            exact h (by simpa using h1.symm)
          · rw [hfull] at h1; simp at h1
        obtain ⟨locs', hfl, hi'⟩ := hf2 hck hg
        obtain ⟨b, rest', locs'', h1, h2⟩ := classMembers_prefix hnd hw ms₂ ms vs (pos + 1) .nil locs' (chRBrace :: k) hN' hi'
          (moveNext_objRest (w := w) (k := k) .nil) hs
        refine ⟨b, rest', locs'', ?_, h2⟩
        simp only [findMember, hloc, hopt, Bool.true_or, assertWeak_tt,
          Res.ok_bind, trimUnchecked_objRest, Option.join, Option.bind, hfl, if_true, h1, id]
        cases classMembers t exact N pU pK (pos + 1 + ms.length) ms₂ locs'' b <;> rfl
      · -- the member was passed before
        have hsem : SemK (pK m.ty) d v := by
          rcases hm with ⟨d', h1, -, h2, -⟩ | ⟨h1, -⟩
          · rw [hfull] at h1
            obtain rfl : d = d' := by simpa using h1
            exact h2
          · rw [hfull] at h1; simp at h1
        have hi' : CInv t tc exact N (pos + 1) full rest locs := hi.mono fun he n hn => by
          refine mem_drop_succ (hi.left he n hn) hpos ?_
          rintro rfl
          exact (JMems_get?_none.1 hg) hn
        obtain ⟨b, rest', locs'', h1, h2⟩ := classMembers_prefix hnd hw ms₂ ms vs (pos + 1) rest locs (objRest w k rest) hN' hi'
          (moveNext_objRest rest) hs
        refine ⟨b, rest', locs'', ?_, h2⟩
        simp only [findMember, hloc, Option.join, Option.bind, Option.isSome_some, Bool.or_true, Bool.true_or,
          assertWeak_tt, Res.ok_bind, trimUnchecked_objRest, hsem r a hst, h1, id]
        cases classMembers t exact N pU pK (pos + 1 + ms.length) ms₂ locs'' b <;> rfl
  | [], _ :: _, _, _, _, _, _, _, _, h => by simp [MemSem] at h
  | _ :: _, [], _, _, _, _, _, _, _, h => by simp [MemSem] at h


theorem classMembers_sem {t : TCfg} {tc exact : Bool} {N : List Bytes} (hnd : N.Nodup)
    {pU : Ty → Bytes → Res (Val × Bytes)} {pK : Ty → Range → Bytes → Res Val} {full : JMems} {w k : Bytes}
    (hw : IsTail tc w) (ms : List Member) (vs : List Val) (pos : Nat) (rest : JMems) (locs : Locs) (bs : Bytes)
    (hN : N.drop pos = ms.map Member.name) (hi : CInv t tc exact N pos full rest locs)
    (hb : moveNextChecked bs = objRest w k rest) (hs : MemSem t.cfg.checked pU pK full ms vs) :
    ∃ b rest', classMembers t exact N pU pK pos ms locs bs = .ok (vs, b) ∧ moveNextChecked b = objRest w k rest' ∧
      rest'.WFt tc ∧ rest'.depth < 4294967295 ∧ (exact = true → rest' = .nil) := by
  obtain ⟨b, rest', locs', h1, h2, h3⟩ := classMembers_prefix hnd (pU := pU) (pK := pK) hw [] ms vs pos rest locs bs
    (by simpa using hN) hi hb hs
  refine ⟨b, rest', by simpa [classMembers] using h1, h2, h3.wf, h3.depth, fun he => ?_⟩
  match rest' with
  | .nil => rfl
  | .cons _ n _ _ _ _ _ =>
    have := h3.left he n (by simp [JMems_names_cons])
    rw [← List.drop_drop, hN, ← List.length_map (f := Member.name), List.drop_length] at this
    simp at this

/-! ## The end of a class -/

theorem brLoop_objRest {tc : Bool} {w k : Bytes} (hw : IsTail tc w) (rest : JMems) (hr : rest.WFt tc)
    (hd : rest.depth < 4294967295) : ∃ n, brLoop objBr 1 0 0 (objRest w k rest) = .ok (n, k) := by
  have hk : IsBr objBr := Or.inr rfl
  have hend : ∀ n, brLoop objBr 1 0 n (chRBrace :: k) = .ok (n, k) := by
    intro n
    have := brLoop_primR hk 1 0 n k
    simpa [objBr, dec32] using this
  match rest with
  | .nil => exact ⟨0, hend 0⟩
  | .cons pre n pc qc x post tl =>
    simp only [JMems.WFt] at hr
    obtain ⟨hpre, hn', hpc, hqc, hx, hpost, htl⟩ := hr
    simp only [JMems.depth] at hd
    refine ⟨tl.length + w.count chComma, ?_⟩
    · simp only [objRest, objAfter]
      rw [brLoop_string _ _ _ hn',
        brLoop_neutral hk _ _ _ _ _ (ws_neutral hpc),
        brLoop_neutral1 hk _ _ _ _ (by simp [Neutral]),
        brLoop_neutral hk _ _ _ _ _ (ws_neutral hqc),
        brLoop_val hk x hx _ _ _ _ (by omega) (by omega) (by omega),
        brLoop_neutral hk _ _ _ _ _ (ws_neutral hpost),
        brLoop_mems hk tl htl _ _ _ _ (by omega) (by omega) (by omega), brLoop_tail hk hw, hend]
      simp

/-- Skipping the rest of a bracketed value. -/
theorem skipBracketed_rest {cfg : Cfg} {br : Brackets} {c : UInt8} {cs k : Bytes} {n : Nat} (hc : c ≠ br.primLeft)
    (hk : cfg.checked = false → k ≠ []) (h : brLoop br 1 0 0 (c :: cs) = .ok (n, k)) :
    ∃ r, skipBracketed cfg br (c :: cs) = .ok (r, k) := by
  have hck : ∀ cfg : Cfg, cfg.checked = true → ∃ r, skipBracketed cfg br (c :: cs) = .ok (r, k) := by
    intro cfg hcfg
    unfold skipBracketed
    rw [if_pos hcfg]
    unfold skipBracketedChecked
    simp only
    rw [if_neg hc, h]
    exact ⟨_, rfl⟩
  cases hc' : cfg.checked with
  | true => exact hck cfg hc'
  | false =>
    obtain ⟨r, hr⟩ := hck { cfg with checked := true } rfl
    cases hkk : k with
    | nil => exact absurd hkk (hk hc')
    | cons x rest =>
      rw [hkk] at hr
      have := skipBracketed_unchecked rfl hr
      have he : unchecked { cfg with checked := true } = cfg := by
        unfold unchecked
        cases cfg
        simp only at hc'
        subst hc'
        rfl
      rw [he] at this
      exact ⟨r, this⟩

theorem classCleanup_sem {cfg : Cfg} {tc exact : Bool} {w k b : Bytes} (hw : IsTail tc w)
    (rest : JMems) (hr : rest.WFt tc) (hd : rest.depth < 4294967295) (he : exact = true → rest = .nil)
    (hb : moveNextChecked b = objRest w k rest) (hk : cfg.checked = false → k ≠ []) : classCleanup cfg exact b = .ok (trimChecked k) := by
  have hne : b.isEmpty = false := by
    cases b with
    | nil =>
      have : moveNextChecked [] = [] := by decide +kernel
      rw [this] at hb
      match rest, hb with
      | .nil, hb => simp [objRest] at hb
      | .cons .., hb => simp [objRest] at hb
    | cons _ _ => rfl
  have hmt : moveToNextClassMember cfg (objRest w k rest) = .ok (objRest w k rest) := by
    match rest with
    | .nil => simp [objRest, moveToNextClassMember]
    | .cons .. => simp [objRest, moveToNextClassMember]
  unfold classCleanup
  simp only [assertWeak_tt, hne, Bool.not_false, Res.ok_bind, moveNext_of hb (objRest_ne _ _ _), hmt]
  cases exact with
  | true =>
    obtain rfl := he rfl
    simp [objRest, headIs, assertWeak_tt]
  | false =>
    obtain ⟨n, hn⟩ := brLoop_objRest (k := k) hw rest hr hd
    have : ∃ r, skipBracketed cfg objBr (objRest w k rest) = .ok (r, k) := by
      match rest, hn with
      | .nil, hn => exact skipBracketed_rest (by decide) hk hn
      | .cons .., hn => exact skipBracketed_rest (by decide) hk hn
    obtain ⟨r, hr⟩ := this
    simp [hr]

/-- An object from its opening brace on. -/
theorem obj_open {tc : Bool} {w k : Bytes} {jm : JMems} (hwf : (JVal.obj w jm).WFt tc) :
    ∃ b, trimChecked ((JVal.obj w jm).text ++ k) = chLBrace :: b ∧
      moveNextChecked (trimChecked b) = objRest w k jm := by
  simp only [JVal.WFt] at hwf
  match jm with
  | .nil =>
    refine ⟨w ++ chRBrace :: k, ?_, ?_⟩
    · simp only [JVal.text, List.cons_append, List.append_assoc, List.nil_append]
      exact trimChecked_cons_of_not _ (by decide)
    · rw [moveNextChecked_trim]
      exact moveNext_close (w₀ := []) (Or.inr rfl) (by simp [IsWs]) hwf.1
  | .cons pre n pc qc v post tl =>
    refine ⟨pre ++ objRest w k (.cons pre n pc qc v post tl), ?_, ?_⟩
    · rw [obj_text]
      exact trimChecked_cons_of_not _ (by decide)
    · have := hwf.2
      simp only [JMems.WFt] at this
      rw [trimChecked_ws _ _ this.1, moveNextChecked_trim]
      exact moveNext_objRest _

/-- Classes. -/
theorem parseObj_sem {t : TCfg} {tc exact : Bool} {ms : List Member}
    (hnd : (ms.map Member.name).Nodup) {pU : Ty → Bytes → Res (Val × Bytes)} {pK : Ty → Range → Bytes → Res Val}
    {w : Bytes} {jm : JMems} {vs : List Val} (hwf : (JVal.obj w jm).WFt tc) (hd : jm.depth < 4294967295)
    (hsz : (JVal.obj w jm).text.length < 2 ^ 63)
    (hok : ∀ n ∈ jm.names, NameOk t (ms.map Member.name) n ∧ (PlainName n ∨ t.escNames = true))
    (honce : ∀ m ∈ ms, jm.names.count m.name ≤ 1)
    (hex : exact = true → ∀ n ∈ jm.names, ∃ m ∈ ms, m.name = n) (hs : MemSem t.cfg.checked pU pK jm ms vs) :
    SemU t.cfg.checked (parseObj t exact ms pU pK) (.obj w jm) (.cls vs) := by
  intro k hk hns
  obtain ⟨b, hb, hmv⟩ := obj_open (k := k) hwf
  simp only [JVal.WFt] at hwf
  have hlen : jm.text.length < 2 ^ 63 := by
    match jm with
    | .nil => simp [JMems.text]
    | .cons .. =>
      simp only [JVal.text, JMems.text, List.length_cons, List.length_append, List.length_nil] at hsz ⊢
      omega
  have hlocs : ∀ (k : Nat) (n : Bytes), (ms.map Member.name)[k]? = some n →
      (ms.map fun _ => (none : Option (Range × Bytes)))[k]? = some none := by
    intro k n hn
    rw [List.getElem?_map] at hn ⊢
    cases h : ms[k]? with
    | none => rw [h] at hn; simp at hn
    | some m => rfl
  have hinv : CInv t tc exact (ms.map Member.name) 0 jm jm (ms.map fun _ => none) := by
    refine ⟨by simp, hwf.2, by omega, hlen, hok, ?_, ?_, ?_, ?_⟩
    · intro n hn
      obtain ⟨m, hm, rfl⟩ := List.mem_map.1 hn
      exact honce m hm
    · intro he n hn
      obtain ⟨m, hm, rfl⟩ := hex he n hn
      exact List.mem_map_of_mem hm
    · exact fun k n d _ hn hg => ⟨hg, hlocs k n hn⟩
    · exact fun k n _ hn hg => Or.inl ⟨hg, hlocs k n hn⟩
  obtain ⟨b', rest', h1, h2, h3, h4, h5⟩ := classMembers_sem (t := t) hnd (k := k) hwf.1 ms vs 0 jm _ (trimChecked b)
    (by simp) hinv hmv hs
  have hcl := classCleanup_sem (cfg := t.cfg) hwf.1 rest' h3 h4 h5 h2 (fun h => (hns h).ne)
  unfold parseObj
  have htb : trimChecked b ≠ [] := by
    intro h
    rw [h] at hmv
    exact objRest_ne w k jm hmv.symm
  simp only [trim_of hb (by simp), trim_of rfl htb, Res.ok_bind, assertWeak_tt, headIs, beq_self_eq_true,
    List.tail_cons, h1, hcl]
  exact ⟨_, rfl, trimChecked_te (TrimEq.refl k)⟩

end Verif
