import Verif.Proof.CommentTypedBasic

/-!
# Typed parsing with comments: classes
-/

namespace Verif

open Spec

variable {p : Cmt} {G L : Bytes → Prop}

/-! ## Skipping a value and storing its range -/

mutual
theorem wfc_wfg (P : Pol p G L) {cc : UInt8} : (v : JVal) → v.WFc cc G L → v.WFg G
  | .null, _ | .tru, _ | .fls, _ => by simp [JVal.WFg]
  | .num _, h | .str _, h => by simpa [JVal.WFg, JVal.WFc] using h
  | .arr w .nil, h => by
    simp only [JVal.WFc] at h
    simpa [JVal.WFg, JElems.WFg] using P.lead h
  | .arr w (.cons pre v post tl), h => by
    simp only [JVal.WFc] at h
    obtain ⟨rfl, h1, h2, h3, h4⟩ := h
    simp only [JVal.WFg, JElems.WFg]
    exact ⟨P.nil, P.lead h1, wfc_wfg P v h2, h3.1, wfc_wfgE P tl h4⟩
  | .obj w .nil, h => by
    simp only [JVal.WFc] at h
    simpa [JVal.WFg, JMems.WFg] using h
  | .obj w (.cons pre n pc qc v post tl), h => by
    simp only [JVal.WFc] at h
    obtain ⟨rfl, h1, h2, h3, h4, h5, h6, h7⟩ := h
    simp only [JVal.WFg, JMems.WFg]
    exact ⟨P.nil, h1, h2, h3, h4, wfc_wfg P v h5, h6.1, wfc_wfgM P tl h7⟩
theorem wfc_wfgE (P : Pol p G L) {cc : UInt8} : (v : JElems) → v.WFc cc G L → v.WFg G
  | .nil, _ => by simp [JElems.WFg]
  | .cons pre v post tl, h => by
    simp only [JElems.WFc] at h
    simp only [JElems.WFg]
    exact ⟨h.1, wfc_wfg P v h.2.1, h.2.2.1.1, wfc_wfgE P tl h.2.2.2⟩
theorem wfc_wfgM (P : Pol p G L) {cc : UInt8} : (v : JMems) → v.WFc cc G L → v.WFg G
  | .nil, _ => by simp [JMems.WFg]
  | .cons pre n pc qc v post tl, h => by
    simp only [JMems.WFc] at h
    simp only [JMems.WFg]
    exact ⟨h.1, h.2.1, h.2.2.1, h.2.2.2.1, wfc_wfg P v h.2.2.2.2.1, h.2.2.2.2.2.1.1, wfc_wfgM P tl h.2.2.2.2.2.2⟩
end

/-- A range and the text after it, as stored for a skipped member with value `d`. -/
def StoredC (d : JVal) (r : Range) (after : Bytes) : Prop :=
  d ≠ .null ∧ r.text = rangeText false d ∧ r.null = false ∧
  (∀ b, d = .str b → r.counter = firstEsc b ∧ ∃ c, after = chQuote :: c) ∧ r.quoted = headIs (· == chQuote) d.text ∧
  after ≠ [] ∧ NumPos d r.dec r.exp ∧ (∀ x, d = .num x → NumEnd after)

/-- `f` reads `d` as `v` from a stored range. -/
def SemKC (f : Range → Bytes → Res Val) (d : JVal) (v : Val) : Prop := ∀ r after, StoredC d r after → f r after = .ok v

theorem skipValueCmt_number (excl kq : Bool) {t : Bytes} (ht : IsNumber t) (c : Bytes) :
    skipValueCmt p excl kq (t ++ c) = skipNumber { checked := true, exclSpecial := excl } (t ++ c) := by
  rw [← skipValue_number _ kq ht c]
  obtain ⟨x, n', rfl, hx⟩ : ∃ x n', t = x :: n' ∧ (x = chMinus ∨ IsDig x) := by
    obtain ⟨m, i, f, e, hm, hi, _, _, rfl⟩ := ht
    obtain ⟨y, i', rfl, hy⟩ := isDigits_head (isInt_digits hi)
    rcases hm with rfl | rfl
    · exact ⟨y, _, rfl, Or.inr hy⟩
    · exact ⟨_, _, rfl, Or.inl rfl⟩
  rw [← isDigit_iff] at hx
  have hne : x ≠ chQuote ∧ x ≠ chLBrack ∧ x ≠ chLBrace ∧ x ≠ chT ∧ x ≠ chF ∧ x ≠ chN := by
    rcases hx with rfl | hx
    · decide
    · refine ⟨?_, ?_, ?_, ?_, ?_, ?_⟩ <;> rintro rfl <;> revert hx <;> decide
  simp [skipValueCmt, skipValue, hne, hx]

/-- The first character behind a value. -/
theorem Pol.head_rest (P : Pol p G L) {g t : Bytes} (hg : G g) (ht : EndToken t) :
    ∀ x, (g ++ t).head? = some x → isWsByte x ∨ (x = cmtChar p ∧ g.head? = some x) ∨ x = 0x2C ∨ x = 0x5D ∨ x = 0x7D := by
  intro x hx
  cases g with
  | nil =>
    rcases ht with rfl | ⟨y, t', rfl, hy⟩
    · simp at hx
    · simp at hx; subst hx; exact Or.inr (Or.inr hy)
  | cons y g' =>
    simp at hx; subst hx
    rcases P.head hg with h | h
    · exact Or.inl h
    · exact Or.inr (Or.inl ⟨h, rfl⟩)

theorem Pol.numEnd (P : Pol p G L) {g t : Bytes} (hg : G g) (ht : EndToken t) : NumEnd (g ++ t) := by
  intro x hx
  rcases P.head_rest hg ht x hx with (rfl | rfl | rfl | rfl) | ⟨h, -⟩ | rfl | rfl | rfl
  all_goals first
    | (subst h; cases p <;> simp [IsDig, cmtChar, UInt8.le_iff_toNat_le])
    | simp [IsDig, UInt8.le_iff_toNat_le]

theorem num_no_quote {x : Bytes} (hn : IsNumber x) (k : Bytes) : headIs (· == chQuote) (x ++ k) = false := by
  obtain ⟨c, cs, hc, -⟩ := text_head (tc := false) (.num x) (by simpa [JVal.WFt] using hn)
  simp only [JVal.text] at hc
  subst hc
  have := number_neutral hn c (by simp)
  unfold Neutral at this
  simp [headIs, this.2.1]

theorem skipValueC_stored (P : Pol p G L) (excl : Bool) {cc : UInt8} {d : JVal} (hd : d.WFc cc G L)
    (hdep : d.depth < 4294967296) (hlen : d.text.length < 2 ^ 63) {g t : Bytes} (hg : G g) (ht : EndToken t) (hne : t ≠ []) :
    ∃ r b, skipValueCmt p excl false (d.text ++ (g ++ t)) = .ok (r, b) ∧ (b = g ++ t ∨ b = t) ∧
      (d = .null ∧ r.null = true ∨ StoredC d (markRange (d.text ++ (g ++ t)) r) (afterRange (d.text ++ (g ++ t)) r)) := by
  have hgt : g ++ t ≠ [] := by simp [hne]
  obtain ⟨r, h1, h2, h3, -⟩ := skipValueCmt_exact (G := G) (G' := G) excl false P.loop (fun g rest h => P.trim rest h)
    (fun g x g' h e => P.head (e ▸ h)) d (wfc_wfg P d hd) hdep g t hg ht (fun _ => hgt)
  refine ⟨r, _, h1, by split <;> simp, ?_⟩
  by_cases hnull : d = .null
  · exact Or.inl ⟨hnull, h3.2 hnull⟩
  obtain ⟨c, cs, hc, -⟩ := text_headC d hd
  have hh : headIs (· == chQuote) (d.text ++ (g ++ t)) = headIs (· == chQuote) d.text := by simp [hc, headIs]
  have hkey : (∀ b, d ≠ .str b) → afterRange (d.text ++ (g ++ t)) r = g ++ t := by
    intro hs
    simp only [afterRange, hh, h2]
    cases d with
    | null => exact absurd rfl hnull
    | str b => exact absurd rfl (hs b)
    | tru => simp [rangeText, JVal.text, headIs]
    | fls => simp [rangeText, JVal.text, headIs]
    | num x =>
      have hf := num_no_quote (by simpa [JVal.WFc] using hd) []
      rw [List.append_nil] at hf
      simp only [JVal.text, hf]
      simp [rangeText, JVal.text]
    | arr w es => cases es <;> simp [rangeText, JVal.text, headIs]
    | obj w es => cases es <;> simp [rangeText, JVal.text, headIs]
  refine Or.inr ⟨hnull, h2, ?_, ?_, ?_, ?_, ?_, fun x hx => ?_⟩
  · change r.null = false
    cases hh : r.null with
    | true => exact absurd (h3.1 hh) hnull
    | false => rfl
  · rintro b rfl
    have hb : IsStrBody b := by simpa only [JVal.WFc] using hd
    have hnp : (2 : Nat) ^ 63 < npos := by decide
    have hlb : b.length < 2 ^ 63 := by
      simp only [JVal.text, List.length_cons, List.length_append, List.length_nil] at hlen
      omega
    have hs := skipString_body { checked := true, exclSpecial := excl } hb (by omega) (g ++ t)
    have ht : (JVal.str b).text ++ (g ++ t) = chQuote :: (b ++ chQuote :: (g ++ t)) := by simp [JVal.text]
    rw [ht] at h1 ⊢
    have he : skipValueCmt p excl false (chQuote :: (b ++ chQuote :: (g ++ t)))
        = skipString { checked := true, exclSpecial := excl } false (chQuote :: (b ++ chQuote :: (g ++ t))) := by
      simp [skipValueCmt]
    rw [he, hs] at h1
    cases h1
    exact ⟨rfl, g ++ t, by simp [afterRange, headIs]⟩
  · exact hh
  · by_cases hs : ∃ b, d = .str b
    · obtain ⟨b, rfl⟩ := hs
      have ht : (JVal.str b).text ++ (g ++ t) = (chQuote :: b) ++ chQuote :: (g ++ t) := by simp [JVal.text]
      have hq : headIs (· == chQuote) ((chQuote :: b) ++ chQuote :: (g ++ t)) = true := rfl
      rw [ht]
      unfold afterRange
      rw [hq, if_pos rfl, h2]
      simp only [rangeText, Bool.false_eq_true, if_false]
      rw [show b.length + 1 = (chQuote :: b).length from rfl, List.drop_left]
      simp
    · rw [hkey (fun b h => hs ⟨b, h⟩)]
      exact hgt
  · rintro neg i f x rfl hi hf hx
    have hs := skipNumber_range { checked := true, exclSpecial := excl } neg i f x (g ++ t) hi hf hx (P.numEnd hg ht) (fun h => by simp at h)
    have hv := skipValueCmt_number (p := p) excl false (by simpa [JVal.WFc] using hd) (g ++ t)
    simp only [JVal.text] at h1
    rw [hv, show (if neg then [chMinus] else []) ++ (i ++ (f ++ x)) = (numRange neg i f x).text from rfl, hs] at h1
    cases h1
    exact ⟨rfl, rfl⟩
  · rw [hkey (by subst hx; simp)]
    exact P.numEnd hg ht

/-! ## Names -/

/-- A member name. -/
theorem parseNameC_ck (P : Pol p G L) {t : TCfg} {cc : UInt8} {n pc qc k : Bytes} {d : JVal}
    (hn : IsStrBody n) (hl : n.length < 2 ^ 63) (hp : PlainName n ∨ t.escNames = true) (hpc : G pc) (hqc : G qc)
    (hd : d.WFc cc G L) :
    parseNameC p t (chQuote :: (n ++ chQuote :: (pc ++ chColon :: (qc ++ (d.text ++ k))))) = .ok (n, d.text ++ k) := by
  have hnm := P.endOfName (k := k) hd hpc hqc
  have hnp : (2 : Nat) ^ 63 < npos := by decide
  unfold parseNameC
  cases he : t.escNames with
  | true =>
    have h1 := skipString_body t.cfg hn (by omega) (pc ++ chColon :: (qc ++ (d.text ++ k)))
    unfold skipString at h1
    have h2 : assertWeak t.cfg.checked (!(n ++ chQuote :: (pc ++ chColon :: (qc ++ (d.text ++ k)))).isEmpty)
        .invalidString = .ok () := by
      have : (n ++ chQuote :: (pc ++ chColon :: (qc ++ (d.text ++ k)))).isEmpty = false := by simp
      rw [this]; exact assertWeak_tt _ _
    simp only [beq_self_eq_true, ensure_true, Res.ok_bind, h2] at h1
    have h3 : skipStringNq t.cfg (n ++ chQuote :: (pc ++ chColon :: (qc ++ (d.text ++ k))))
        = .ok ({ text := n, counter := firstEsc n }, pc ++ chColon :: (qc ++ (d.text ++ k))) := by
      revert h1
      cases skipStringNq t.cfg (n ++ chQuote :: (pc ++ chColon :: (qc ++ (d.text ++ k)))) <;> simp
    simp only [ensure_true, headIs, beq_self_eq_true, Res.ok_bind, if_true, List.tail_cons, h3, hnm]
  | false =>
    have hp : PlainName n := by rcases hp with h | h; exact h; rw [he] at h; simp at h
    have hlast : (n.getLast? != some chBslash) = true := by
      simp only [bne_iff_ne, ne_eq]
      intro h
      exact hp (List.mem_of_getLast? h)
    simp [headIs, toQuote_plain (strBody_no_quote hn hp), hlast, hnm]

/-! ## The search for a member -/

/-- The state of the search: `full` are all members of the object, `rest` those not passed yet. -/
structure CInvC (G L : Bytes → Prop) (cc : UInt8) (t : TCfg) (exact : Bool) (N : List Bytes) (pos : Nat) (full rest : JMems) (locs : Locs) : Prop where
  len : locs.length = N.length
  wf : rest.WFc cc G L
  depth : rest.depth < 4294967295
  size : rest.text.length < 2 ^ 63
  ok : ∀ n ∈ rest.names, NameOk t N n ∧ (PlainName n ∨ t.escNames = true)
  once : ∀ n ∈ N, rest.names.count n ≤ 1
  left : exact = true → ∀ n ∈ rest.names, n ∈ N.drop pos
  ahead : ∀ k n d, pos ≤ k → N[k]? = some n → rest.get? n = some d → full.get? n = some d ∧ locs[k]? = some none
  behind : ∀ k n, pos ≤ k → N[k]? = some n → rest.get? n = none →
    (full.get? n = none ∧ locs[k]? = some none) ∨
    (∃ d, full.get? n = some d ∧ d = .null ∧ locs[k]? = some none) ∨
    (∃ d r a, full.get? n = some d ∧ locs[k]? = some (some (r, a)) ∧ StoredC d r a)

theorem CInvC.mono {cc : UInt8} {t : TCfg} {exact : Bool} {N : List Bytes} {pos : Nat} {full rest : JMems} {locs : Locs}
    (h : CInvC G L cc t exact N pos full rest locs) (hl : exact = true → ∀ n ∈ rest.names, n ∈ N.drop (pos + 1)) :
    CInvC G L cc t exact N (pos + 1) full rest locs :=
  { h with
    left := hl
    ahead := fun k n d hk => h.ahead k n d (by omega)
    behind := fun k n hk => h.behind k n (by omega) }

/-- Passing a member of the object. -/
theorem CInvC.step {cc : UInt8} {t : TCfg} {exact : Bool} {N : List Bytes} {pos : Nat} {full tl : JMems} {locs : Locs}
    {pre n pc qc : Bytes} {d : JVal} {post : Bytes}
    (h : CInvC G L cc t exact N pos full (.cons pre n pc qc d post tl) locs) (locs' : Locs) (hlen : locs'.length = N.length)
    (hl : ∀ k m, pos ≤ k → N[k]? = some m → m ≠ n → locs'[k]? = locs[k]?)
    (hn : ∀ k, pos ≤ k → N[k]? = some n →
      (d = .null ∧ locs'[k]? = some none) ∨ ∃ r a, locs'[k]? = some (some (r, a)) ∧ StoredC d r a) :
    CInvC G L cc t exact N pos full tl locs' := by
  have hnn : n ∈ N → n ∉ tl.names := by
    intro hN hm
    have := h.once n hN
    rw [JMems_names_cons, List.count_cons_self] at this
    have := List.count_pos_iff.2 hm
    omega
  have hwf := h.wf
  have hdep := h.depth
  have hsz := h.size
  simp only [JMems.WFc] at hwf
  simp only [JMems.depth] at hdep
  simp only [JMems.text, List.length_cons, List.length_append] at hsz
  refine ⟨hlen, hwf.2.2.2.2.2.2, by omega, by omega, ?_, ?_, ?_, ?_, ?_⟩
  · intro m hm
    exact h.ok m (by rw [JMems_names_cons]; exact List.mem_cons_of_mem _ hm)
  · intro m hm
    have := h.once m hm
    rw [JMems_names_cons, List.count_cons] at this
    omega
  · intro he m hm
    exact h.left he m (by rw [JMems_names_cons]; exact List.mem_cons_of_mem _ hm)
  · intro k m d' hk hm hg
    have hmn : m ≠ n := by
      rintro rfl
      have := JMems_get?_none.2 (hnn (List.mem_of_getElem? hm))
      rw [this] at hg
      simp at hg
    have := h.ahead k m d' hk hm (by rw [JMems_get?_cons, if_neg hmn]; exact hg)
    rw [hl k m hk hm hmn]
    exact this
  · intro k m hk hm hg
    by_cases hmn : m = n
    · subst hmn
      have := h.ahead k m d hk hm (by rw [JMems_get?_cons, if_pos rfl])
      rcases hn k hk hm with ⟨h1, h2⟩ | ⟨r, a, h1, h2⟩
      · exact Or.inr (Or.inl ⟨d, this.1, h1, h2⟩)
      · exact Or.inr (Or.inr ⟨d, r, a, this.1, h1, h2⟩)
    · rw [hl k m hk hm hmn]
      exact h.behind k m hk hm (by rw [JMems_get?_cons, if_neg hmn]; exact hg)

/-- What the search for `nm` at `pos` gives. -/
theorem findLoopC_sem (P : Pol p G L) {cc : UInt8} (hcc : cc = cmtChar p) {t : TCfg} {exact : Bool} {N : List Bytes} (hnd : N.Nodup)
    {pos : Nat} {nm : Bytes} (hpos : N[pos]? = some nm) {full : JMems} {k : Bytes} :
    ∀ (rest : JMems) (locs : Locs), CInvC G L cc t exact N pos full rest locs →
      (∀ d, rest.get? nm = some d → ∃ locs' post tl,
        findLoopC p t exact N pos locs (objRest [] k rest) = .ok (.here, locs', d.text ++ objAfter post tl [] k) ∧
        Behind cc G d post ∧ d.WFc cc G L ∧ CInvC G L cc t exact N (pos + 1) full tl locs') ∧
      (rest.get? nm = none → ∃ locs',
        findLoopC p t exact N pos locs (objRest [] k rest) = .ok (.absent, locs', chRBrace :: k) ∧
        CInvC G L cc t exact N (pos + 1) full .nil locs')
  | .nil, locs, hi => by
    refine ⟨by simp [JMems.get?, JMems.toList], fun _ => ⟨locs, ?_, hi.mono (by simp [JMems.names, JMems.toList])⟩⟩
    rw [findLoopC.eq_def]
    simp [objRest]
  | .cons pre n pc qc d post tl, locs, hi => by
    have hwf := hi.wf
    have hdep := hi.depth
    have hsz := hi.size
    simp only [JMems.WFc] at hwf
    obtain ⟨-, hn, hpc, hqc, hd, hpost, htl⟩ := hwf
    simp only [JMems.depth] at hdep
    simp only [JMems.text, List.length_cons, List.length_append] at hsz
    obtain ⟨hok, hpl⟩ := hi.ok n (by simp [JMems_names_cons])
    have hplt : pos < N.length := (List.getElem?_eq_some_iff.1 hpos).1
    have hname := parseNameC_ck P (t := t) (k := objAfter post tl [] k) hn (by omega) hpl hpc hqc hd
    have hobj : objRest [] k (.cons pre n pc qc d post tl)
        = chQuote :: (n ++ chQuote :: (pc ++ chColon :: (qc ++ (d.text ++ objAfter post tl [] k)))) := rfl
    obtain ⟨r, b, hsk, htr, hst⟩ := skipValueC_stored P t.cfg.exclSpecial hd (by omega) (by omega) hpost.1 (endToken_obj tl k) (by simp)
    rw [← objAfter_eq] at hsk hst
    have hmv : moveNextCmt p b = .ok (objRest [] k tl) := by
      rw [P.moveNext_rest hpost.1 (endToken_obj tl k) htr, P.afterToken_obj htl]
    have hlt : (objRest [] k tl).length < (objRest [] k (.cons pre n pc qc d post tl)).length := by
      have := objRest_length [] k post tl
      rw [hobj]
      simp only [List.length_append, List.length_cons]
      omega
    rw [JMems_get?_cons]
    by_cases hmem : n ∈ N.drop pos
    · obtain ⟨j, hj⟩ := List.getElem?_of_mem hmem
      rw [List.getElem?_drop] at hj
      have hfn := findName_present hok hnd hj (by omega : pos ≤ pos + j)
      have hjlt : pos + j < N.length := (List.getElem?_eq_some_iff.1 hj).1
      by_cases hnm : nm = n
      · -- found
        subst hnm
        have hj0 := nodup_getElem?_inj hnd hj hpos
        have hnN : nm ∉ tl.names := by
          intro hm
          have := hi.once nm (List.mem_of_getElem? hpos)
          rw [JMems_names_cons, List.count_cons_self] at this
          have := List.count_pos_iff.2 hm
          omega
        rw [if_pos rfl]
        refine ⟨?_, by simp⟩
        rintro d' hdd
        obtain rfl : d = d' := by simpa using hdd
        refine ⟨locs, post, tl, ?_, hpost, hd, ?_⟩
        · rw [findLoopC.eq_def, hobj]
          simp only [hname, Res.ok_bind]
          rw [if_neg (by decide), hfn, hj0]
          rw [if_neg (by omega), if_neg (by omega), if_pos rfl]
        · -- the search state without the member at `pos`
          refine ⟨hi.len, htl, by omega, by omega, ?_, ?_, ?_, ?_, ?_⟩
          · exact fun m hm => hi.ok m (by rw [JMems_names_cons]; exact List.mem_cons_of_mem _ hm)
          · intro m hm
            have := hi.once m hm
            rw [JMems_names_cons, List.count_cons] at this
            omega
          · intro he m hm
            refine mem_drop_succ (hi.left he m (by rw [JMems_names_cons]; exact List.mem_cons_of_mem _ hm)) hpos ?_
            rintro rfl
            exact hnN hm
          · intro i m d' hk hm hg
            have : m ≠ nm := by rintro rfl; rw [JMems_get?_none.2 hnN] at hg; simp at hg
            exact hi.ahead i m d' (by omega) hm (by rw [JMems_get?_cons, if_neg this]; exact hg)
          · intro i m hk hm hg
            have : m ≠ nm := by rintro rfl; have := nodup_getElem?_inj hnd hm hpos; omega
            exact hi.behind i m (by omega) hm (by rw [JMems_get?_cons, if_neg this]; exact hg)
      · -- a member to be remembered
        rw [if_neg hnm]
        have hjne : pos + j ≠ pos := by
          intro h
          rw [h, hpos] at hj
          exact hnm (by simpa using hj)
        have hstep := hi.step (setLoc locs (pos + j) (markRange (d.text ++ objAfter post tl [] k) r)
            (afterRange (d.text ++ objAfter post tl [] k) r))
          (by rw [setLoc, List.length_set]; exact hi.len)
          (fun i m hk hm hmn => setLoc_get_ne (by
            rintro rfl
            rw [hj] at hm
            exact hmn (by simpa using hm.symm)))
          (fun i hk hm => by
            obtain rfl := nodup_getElem?_inj hnd hm hj
            rw [setLoc_get (by rw [hi.len]; exact hjlt)]
            rcases hst with ⟨h1, h2⟩ | h
            · exact Or.inl ⟨h1, by simp [markRange, h2]⟩
            · exact Or.inr ⟨_, _, by simp [h.2.2.1], h⟩)
        have ih := findLoopC_sem P hcc hnd hpos (k := k) tl _ hstep
        have hred : findLoopC p t exact N pos locs (objRest [] k (.cons pre n pc qc d post tl))
            = findLoopC p t exact N pos
                (setLoc locs (pos + j) (markRange (d.text ++ objAfter post tl [] k) r)
            (afterRange (d.text ++ objAfter post tl [] k) r))
                (objRest [] k tl) := by
          rw [hobj] at hlt ⊢
          rw [findLoopC.eq_def]
          simp only [hname, Res.ok_bind]
          rw [if_neg (by decide), hfn]
          rw [if_neg (by omega), if_neg (by omega), if_neg hjne]
          simp only [hsk, Res.ok_bind, hmv]
          rw [dif_pos hlt]
        rw [hred]
        exact ih
    · -- an unmapped member
      have hfn := findName_absent hok hmem (by omega)
      have hnm : nm ≠ n := by
        rintro rfl
        refine hmem ?_
        rw [List.drop_eq_getElem_cons hplt]
        have := (List.getElem?_eq_some_iff.1 hpos).2
        simp [this]
      rw [if_neg hnm]
      have hex : ¬ (exact = true) := fun he => hmem (hi.left he n (by simp [JMems_names_cons]))
      have hstep := hi.step locs hi.len (fun _ _ _ _ _ => rfl) (fun i hk hm => by
        exfalso
        refine hmem ?_
        have : (N.drop pos)[i - pos]? = some n := by
          rw [List.getElem?_drop, show pos + (i - pos) = i by omega, hm]
        exact List.mem_of_getElem? this)
      have ih := findLoopC_sem P hcc hnd hpos (k := k) tl _ hstep
      have hred : findLoopC p t exact N pos locs (objRest [] k (.cons pre n pc qc d post tl))
          = findLoopC p t exact N pos locs (objRest [] k tl) := by
        rw [hobj] at hlt ⊢
        rw [findLoopC.eq_def]
        simp only [hname, Res.ok_bind]
        rw [if_neg (by decide), hfn]
        rw [if_neg (fun h => hex h.1), if_pos (Nat.le_refl _)]
        simp only [hsk, Res.ok_bind, hmv]
        rw [dif_pos hlt]
      rw [hred]
      exact ih

/-! ## The members of a class -/

/-- The mapped members are read as the values from an object with members `full`. -/
def MemSemC (p : Cmt) (G : Bytes → Prop) (pU : Ty → Bytes → Res (Val × Bytes)) (pK : Ty → Range → Bytes → Res Val) (full : JMems) :
    List Member → List Val → Prop
  | [], [] => True
  | m :: ms, v :: vs =>
    ((∃ d, full.get? m.name = some d ∧ SemUC p G (pU m.ty) d v ∧ SemKC (pK m.ty) d v ∧
        (d = .null → m.ty.isOpt = true ∧ v = .none)) ∨
      (full.get? m.name = none ∧ m.ty.isOpt = true ∧ v = .none)) ∧ MemSemC p G pU pK full ms vs
  | _, _ => False

theorem skipUnchecked_stop {c : UInt8} (h : c ≠ cmtChar p) (hs : isSpace c = false) (cs : Bytes) :
    trimCmtUnchecked p (c :: cs) = trimUnchecked (c :: cs) := by
  cases p with
  | mini => exact (trimUnchecked_cons_of_not _ hs).symm
  | hash =>
    have : skipHashUnchecked (c :: cs) = .ok (c :: cs) := by
      rw [skipHashUnchecked.eq_def]
      simp only
      rw [if_neg (by simpa [cmtChar] using h)]
    simp [trimCmtUnchecked, this]
  | cpp =>
    have : skipCppUnchecked (c :: cs) = .ok (c :: cs) := by
      rw [skipCppUnchecked.eq_def]
      simp only
      rw [if_neg (by simpa [cmtChar] using h)]
    simp [trimCmtUnchecked, this]

theorem trimCmtUnchecked_objRest (k : Bytes) (rest : JMems) :
    trimCmtUnchecked p (objRest [] k rest) = .ok (objRest [] k rest) := by
  match rest with
  | .nil => exact (skipUnchecked_stop (by cases p <;> decide) (by decide) _).trans (trimUnchecked_cons_of_not _ (by decide))
  | .cons .. => exact (skipUnchecked_stop (by cases p <;> decide) (by decide) _).trans (trimUnchecked_cons_of_not _ (by decide))

theorem moveNextCmt_objRest (k : Bytes) (rest : JMems) : moveNextCmt p (objRest [] k rest) = .ok (objRest [] k rest) := by
  match rest with
  | .nil =>
    unfold moveNextCmt
    simp only [objRest]
    rw [trimCmt_punct p (by simp)]
    rfl
  | .cons .. =>
    unfold moveNextCmt
    simp only [objRest]
    rw [trimCmt_punct p (by simp)]
    rfl

theorem classMembersC_sem (P : Pol p G L) {cc : UInt8} (hcc : cc = cmtChar p) {t : TCfg} {exact : Bool} {N : List Bytes} (hnd : N.Nodup)
    {pU : Ty → Bytes → Res (Val × Bytes)} {pK : Ty → Range → Bytes → Res Val} {full : JMems} {k : Bytes} :
    ∀ (ms : List Member) (vs : List Val) (pos : Nat) (rest : JMems) (locs : Locs) (bs : Bytes),
      N.drop pos = ms.map Member.name → CInvC G L cc t exact N pos full rest locs →
      moveNextCmt p bs = .ok (objRest [] k rest) → MemSemC p G pU pK full ms vs →
      ∃ b rest', classMembersC p t exact N pU pK pos ms locs bs = .ok (vs, b) ∧
        moveNextCmt p b = .ok (objRest [] k rest') ∧ rest'.WFc cc G L ∧ rest'.depth < 4294967295 ∧ (exact = true → rest' = .nil)
  | [], [], pos, rest, locs, bs, hN, hi, hb, _ => by
    refine ⟨bs, rest, rfl, hb, hi.wf, hi.depth, fun he => ?_⟩
    match rest with
    | .nil => rfl
    | .cons _ n _ _ _ _ _ =>
      have := hi.left he n (by simp [JMems_names_cons])
      rw [hN] at this
      simp at this
  | m :: ms, v :: vs, pos, rest, locs, bs, hN, hi, hb, hs => by
    obtain ⟨hm, hs⟩ := hs
    have hpos : N[pos]? = some m.name := by
      have := congrArg (·[0]?) hN
      simpa [List.getElem?_drop] using this
    have hN' : N.drop (pos + 1) = ms.map Member.name := by
      rw [← List.drop_drop, hN]; rfl
    obtain ⟨hf1, hf2⟩ := findLoopC_sem P hcc hnd hpos (k := k) rest locs hi
    unfold classMembersC
    simp only [hb, Res.ok_bind, objRest_head, ensure_true]
    cases hg : rest.get? m.name with
    | some d =>
      -- the value is at the cursor
      obtain ⟨hfull, hloc⟩ := hi.ahead pos m.name d (Nat.le_refl _) hpos hg
      obtain ⟨locs', post, tl, hfl, hpost, hd, hi'⟩ := hf1 d hg
      have hhead : headIs (fun c => c == chRBrace) (objRest [] k rest) = false := by
        match rest, hg with
        | .nil, hg => simp [JMems.get?, JMems.toList] at hg
        | .cons .., _ => rfl
      have hsem : SemUC p G (pU m.ty) d v := by
        rcases hm with ⟨d', h1, h2, -⟩ | ⟨h1, -⟩
        · rw [hfull] at h1
          obtain rfl : d = d' := by simpa using h1
          exact h2
        · rw [hfull] at h1; simp at h1
      obtain ⟨r, hr, htr⟩ := hsem.obj (hcc ▸ hpost) tl k
      have hmv : moveNextCmt p r = .ok (objRest [] k tl) := by
        rw [P.moveNext_rest hpost.1 (endToken_obj tl k) htr, P.afterToken_obj hi'.wf]
      obtain ⟨b, rest', h1, h2⟩ := classMembersC_sem P hcc hnd ms vs (pos + 1) tl locs' r hN' hi' hmv hs
      refine ⟨b, rest', ?_, h2⟩
      simp only [findMemberC, hhead, hloc, Bool.not_false, Bool.or_true, ensure_true,
        Res.ok_bind, trimCmtUnchecked_objRest, Option.join, Option.bind, hfl, hr, h1, id]
    | none =>
      rcases hi.behind pos m.name (Nat.le_refl _) hpos hg with ⟨hfull, hloc⟩ | ⟨d, hfull, rfl, hloc⟩ |
        ⟨d, r, a, hfull, hloc, hst⟩
      · -- no such member
        obtain ⟨hopt, rfl⟩ : m.ty.isOpt = true ∧ v = .none := by
          rcases hm with ⟨d', h1, -⟩ | ⟨-, h⟩
          · rw [hfull] at h1; simp at h1
          · exact h
        obtain ⟨locs', hfl, hi'⟩ := hf2 hg
        obtain ⟨b, rest', h1, h2⟩ := classMembersC_sem P hcc hnd ms vs (pos + 1) .nil locs' (chRBrace :: k) hN' hi'
          (moveNextCmt_objRest (p := p) k .nil) hs
        refine ⟨b, rest', ?_, h2⟩
        simp only [findMemberC, hloc, hopt, Bool.true_or, ensure_true,
          Res.ok_bind, trimCmtUnchecked_objRest, Option.join, Option.bind, hfl, if_true, h1, id]
      · -- the member was `null`
        obtain ⟨hopt, rfl⟩ : m.ty.isOpt = true ∧ v = .none := by
          rcases hm with ⟨d', h1, -, -, h⟩ | ⟨h1, -⟩
          · rw [hfull] at h1
            exact h (by simpa using h1.symm)
          · rw [hfull] at h1; simp at h1
        obtain ⟨locs', hfl, hi'⟩ := hf2 hg
        obtain ⟨b, rest', h1, h2⟩ := classMembersC_sem P hcc hnd ms vs (pos + 1) .nil locs' (chRBrace :: k) hN' hi'
          (moveNextCmt_objRest (p := p) k .nil) hs
        refine ⟨b, rest', ?_, h2⟩
        simp only [findMemberC, hloc, hopt, Bool.true_or, ensure_true,
          Res.ok_bind, trimCmtUnchecked_objRest, Option.join, Option.bind, hfl, if_true, h1, id]
      · -- the member was passed before
        have hsem : SemKC (pK m.ty) d v := by
          rcases hm with ⟨d', h1, -, h2, -⟩ | ⟨h1, -⟩
          · rw [hfull] at h1
            obtain rfl : d = d' := by simpa using h1
            exact h2
          · rw [hfull] at h1; simp at h1
        have hi' : CInvC G L cc t exact N (pos + 1) full rest locs := hi.mono fun he n hn => by
          refine mem_drop_succ (hi.left he n hn) hpos ?_
          rintro rfl
          exact (JMems_get?_none.1 hg) hn
        obtain ⟨b, rest', h1, h2⟩ := classMembersC_sem P hcc hnd ms vs (pos + 1) rest locs (objRest [] k rest) hN' hi'
          (moveNextCmt_objRest k rest) hs
        refine ⟨b, rest', ?_, h2⟩
        simp only [findMemberC, hloc, Option.join, Option.bind, Option.isSome_some, Bool.or_true, Bool.true_or,
          ensure_true, Res.ok_bind, trimCmtUnchecked_objRest, hsem r a hst, h1, id]
  | [], _ :: _, _, _, _, _, _, _, _, h => by simp [MemSemC] at h
  | _ :: _, [], _, _, _, _, _, _, _, h => by simp [MemSemC] at h

/-! ## The end of a class -/

theorem Pol.over (P : Pol p G L) {k : Brackets} (hk : IsBr k) : LoopOver k (cmtChar p) G (brLoopCmt p k) := brLoopCmt_over hk (P.loop k hk)

theorem brLoopC_objRest (P : Pol p G L) {cc : UInt8} {k : Bytes} (rest : JMems) (hr : rest.WFc cc G L)
    (hd : rest.depth < 4294967295) : ∃ n, brLoopCmt p objBr 1 0 0 (objRest [] k rest) = .ok (n, k) := by
  have hk : IsBr objBr := Or.inr rfl
  have H := P.over hk
  have hcc := cmtChar_byte p
  have hend : ∀ n, brLoopCmt p objBr 1 0 n (chRBrace :: k) = .ok (n, k) := by
    intro n
    have := H.primR 1 0 n k
    simpa [objBr, dec32] using this
  match rest with
  | .nil => exact ⟨0, hend 0⟩
  | .cons pre n pc qc x post tl =>
    have hr := wfc_wfgM P _ hr
    simp only [JMems.WFg] at hr
    obtain ⟨hpre, hn', hpc, hqc, hx, hpost, htl⟩ := hr
    simp only [JMems.depth] at hd
    refine ⟨tl.length, ?_⟩
    simp only [objRest, objAfter, List.nil_append]
    rw [H.string _ _ _ _ _ hn', H.gap _ _ _ _ _ hpc,
      H.neutral1 1 0 _ _ _ (by simp [Neutral]) (by rcases hcc with h | h <;> rw [h] <;> decide),
      H.gap _ _ _ _ _ hqc, H.val hk hcc x hx 1 0 0 _ (by omega) (by omega) (by omega),
      H.gap _ _ _ _ _ hpost, H.mems hk hcc tl htl 1 0 0 _ (by omega) (by omega) (by omega), hend]
    simp

/-- Skipping the rest of a bracketed value. -/
theorem skipBracketedC_rest {br : Brackets} {c : UInt8} {cs k : Bytes} {n : Nat} (hc : c ≠ br.primLeft)
    (h : brLoopCmt p br 1 0 0 (c :: cs) = .ok (n, k)) : ∃ r, skipBracketedCmt p br (c :: cs) = .ok (r, k) := by
  unfold skipBracketedCmt
  simp only
  rw [if_neg hc, h]
  exact ⟨_, rfl⟩

theorem skipCmt_stop {c : UInt8} (h : c ≠ cmtChar p) (cs : Bytes) : skipCmt p (c :: cs) = .ok (c :: cs) := by
  cases p with
  | hash => exact skipHash_stop h cs
  | cpp => exact skipCpp_stop h cs
  | mini => rfl

theorem moveToNextClassMemberC_objRest (k : Bytes) (rest : JMems) :
    moveToNextClassMemberC p (objRest [] k rest) = .ok (objRest [] k rest) := by
  unfold moveToNextClassMemberC
  match rest with
  | .nil =>
    simp only [objRest]
    rw [skipCmt_stop (by cases p <;> decide)]
    simp only [Res.ok_bind, List.isEmpty_cons, Bool.not_false, ensure_true]
    rw [moveToMemberC.eq_def]
    simp
  | .cons .. =>
    simp only [objRest]
    rw [skipCmt_stop (by cases p <;> decide)]
    simp only [Res.ok_bind, List.isEmpty_cons, Bool.not_false, ensure_true]
    rw [moveToMemberC.eq_def]
    simp

theorem moveNextCmt_nil_ne (k : Bytes) (rest : JMems) : moveNextCmt p [] ≠ .ok (objRest [] k rest) := by
  intro h
  rw [show moveNextCmt p [] = .ok [] by cases p <;> decide +kernel] at h
  match rest, h with
  | .nil, h => simp [objRest] at h
  | .cons .., h => simp [objRest] at h

theorem classCleanupC_sem (P : Pol p G L) {cc : UInt8} {exact : Bool} {k b : Bytes}
    (rest : JMems) (hr : rest.WFc cc G L) (hd : rest.depth < 4294967295) (he : exact = true → rest = .nil)
    (hb : moveNextCmt p b = .ok (objRest [] k rest)) : classCleanupC p exact b = trimCmt p k := by
  have hne : b.isEmpty = false := by
    cases b with
    | nil => exact absurd hb (moveNextCmt_nil_ne k rest)
    | cons _ _ => rfl
  unfold classCleanupC
  simp only [hne, Bool.not_false, ensure_true, Res.ok_bind, hb, moveToNextClassMemberC_objRest]
  cases exact with
  | true =>
    obtain rfl := he rfl
    simp [objRest, headIs]
  | false =>
    obtain ⟨n, hn⟩ := brLoopC_objRest P (k := k) rest hr hd
    have : ∃ r, skipBracketedCmt p objBr (objRest [] k rest) = .ok (r, k) := by
      match rest, hn with
      | .nil, hn => exact skipBracketedC_rest (by decide) hn
      | .cons .., hn => exact skipBracketedC_rest (by decide) hn
    obtain ⟨r, hr⟩ := this
    simp [hr]

/-- An object from its opening brace on. -/
theorem obj_openC (P : Pol p G L) {cc : UInt8} {w k : Bytes} {jm : JMems} (hwf : (JVal.obj w jm).WFc cc G L) :
    ∃ b b', (JVal.obj w jm).text ++ k = chLBrace :: b ∧ trimCmt p b = .ok b' ∧
      moveNextCmt p b' = .ok (objRest [] k jm) ∧ jm.WFc cc G L := by
  match jm with
  | .nil =>
    simp only [JVal.WFc] at hwf
    refine ⟨w ++ chRBrace :: k, chRBrace :: k, by simp [JVal.text], ?_, moveNextCmt_objRest k .nil, by simp [JMems.WFc]⟩
    exact (P.trim _ hwf).trans (trimCmt_punct p (by simp) _)
  | .cons pre n pc qc v post tl =>
    simp only [JVal.WFc] at hwf
    obtain ⟨rfl, hwf⟩ := hwf
    refine ⟨pre ++ objRest [] k (.cons pre n pc qc v post tl), objRest [] k (.cons pre n pc qc v post tl), ?_, ?_,
      moveNextCmt_objRest k _, by simpa only [JMems.WFc] using hwf⟩
    · rw [obj_text]
    · rw [P.trim _ hwf.1]
      exact trimCmt_punct p (by simp) _

/-- Classes. -/
theorem parseObjC_sem (P : Pol p G L) {t : TCfg} {exact : Bool} {ms : List Member}
    (hnd : (ms.map Member.name).Nodup) {pU : Ty → Bytes → Res (Val × Bytes)} {pK : Ty → Range → Bytes → Res Val}
    {w : Bytes} {jm : JMems} {vs : List Val} (hwf : (JVal.obj w jm).WFc (cmtChar p) G L) (hd : jm.depth < 4294967295)
    (hsz : (JVal.obj w jm).text.length < 2 ^ 63)
    (hok : ∀ n ∈ jm.names, NameOk t (ms.map Member.name) n ∧ (PlainName n ∨ t.escNames = true))
    (honce : ∀ m ∈ ms, jm.names.count m.name ≤ 1)
    (hex : exact = true → ∀ n ∈ jm.names, ∃ m ∈ ms, m.name = n) (hs : MemSemC p G pU pK jm ms vs) :
    SemUC p G (parseObjC p t exact ms pU pK) (.obj w jm) (.cls vs) := by
  intro g tt hg ht _
  obtain ⟨b, b', hb, hb', hmv, hjm⟩ := obj_openC P (k := g ++ tt) hwf
  have hlen : jm.text.length < 2 ^ 63 := by
    match jm with
    | .nil => simp [JMems.text]
    | .cons .. =>
      simp only [JVal.text, JMems.text, List.length_cons, List.length_append, List.length_nil] at hsz ⊢
      omega
  have hlocs : ∀ (k : Nat) (n : Bytes), (ms.map Member.name)[k]? = some n →
      (ms.map fun _ => (none : Option (Range × Bytes)))[k]? = some none := by
    intro k n hn
    rw [List.getElem?_map] at hn ⊢
    cases h : ms[k]? with
    | none => rw [h] at hn; simp at hn
    | some m => rfl
  have hinv : CInvC G L (cmtChar p) t exact (ms.map Member.name) 0 jm jm (ms.map fun _ => none) := by
    refine ⟨by simp, hjm, by omega, hlen, hok, ?_, ?_, ?_, ?_⟩
    · intro n hn
      obtain ⟨m, hm, rfl⟩ := List.mem_map.1 hn
      exact honce m hm
    · intro he n hn
      obtain ⟨m, hm, rfl⟩ := hex he n hn
      exact List.mem_map_of_mem hm
    · exact fun k n d _ hn hg => ⟨hg, hlocs k n hn⟩
    · exact fun k n _ hn hg => Or.inl ⟨hg, hlocs k n hn⟩
  obtain ⟨b₂, rest', h1, h2, h3, h4, h5⟩ := classMembersC_sem P rfl (t := t) hnd (k := g ++ tt) ms vs 0 jm _ b'
    (by simp) hinv hmv hs
  have hcl := classCleanupC_sem P rest' h3 h4 h5 h2
  have htr : trimCmt p (chLBrace :: b) = .ok (chLBrace :: b) := trimCmt_punct p (by simp) _
  unfold parseObjC
  rw [hb]
  simp only [htr, Res.ok_bind, headIs, beq_self_eq_true, ensure_true, List.tail_cons, hb', h1, hcl,
    P.trim_rest hg.1 ht (Or.inl rfl)]
  exact ⟨_, rfl, Or.inr rfl⟩

end Verif
