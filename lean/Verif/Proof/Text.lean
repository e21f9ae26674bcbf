import Verif.Proof.DateRound
import Verif.Proof.TypedClass
import Verif.Proof.RealDec
import Verif.Proof.Literal

/-!
# Members that take the text of a value: what they read
-/

namespace Verif

open Spec

variable {tc : Bool}

theorem parseTimestamp_reads {b : Bytes} {t : Int} (h : IsUtcText b t) : parseTimestamp b = .ok t := by
  obtain ⟨txt, z, y, m, d, hh, mi, s, ns, rfl, h1, h2, h3, h4, h5, h6, h7, ht⟩ := h
  rw [ht]
  exact parseTimestamp_utc h1 h2 h3 h4 h5 h6 h7

theorem parseTimestamp_nil : parseTimestamp [] = .err .invalidTimestamp := by
  unfold parseTimestamp
  simp

theorem isUtcText_ne {b : Bytes} {t : Int} (h : IsUtcText b t) : b ≠ [] := by
  rintro rfl
  have := parseTimestamp_reads h
  rw [parseTimestamp_nil] at this
  cases this

theorem customStart_of (cfg : Cfg) {b : Bytes} (h : CustomText b) : customStart cfg b = .ok () := by
  obtain ⟨h1, h2, h3⟩ := h
  unfold customStart
  match b with
  | [] => exact absurd rfl h1
  | x :: xs =>
    have e1 : x ≠ 0x5B := by simpa using h2
    have e2 : x ≠ 0x7B := by simpa using h3
    have : headIs (fun c => !(c == chLBrack || c == chLBrace)) (x :: xs) = true := by simp [headIs, e1, e2]
    rw [this]
    cases cfg.checked <;> rfl

theorem isLit_head {d : JVal} (hd : d.WFt tc) (h : d.IsLit) :
    ∃ c cs, d.text = c :: cs ∧ c ≠ 0x22 ∧ c ≠ 0x5B ∧ c ≠ 0x7B ∧ c ≠ 0x6E ∧ (c = 0x74 ∨ c = 0x66 ∨ c = 0x2D ∨ isDigit c = true) := by
  match d with
  | .tru => exact ⟨_, _, rfl, by decide, by decide, by decide, by decide, by decide⟩
  | .fls => exact ⟨_, _, rfl, by decide, by decide, by decide, by decide, by decide⟩
  | .num n =>
    have ht : IsNumber n := by simpa [JVal.WFt] using hd
    obtain ⟨m, i, f, e, hm, hi, _, _, rfl⟩ := ht
    obtain ⟨y, i', rfl, hy⟩ := isDigits_head (isInt_digits hi)
    rcases hm with rfl | rfl
    · rw [← isDigit_iff] at hy
      refine ⟨y, _, rfl, ?_, ?_, ?_, ?_, Or.inr (Or.inr (Or.inr hy))⟩ <;> rintro rfl <;> revert hy <;> decide
    · exact ⟨_, _, rfl, by decide, by decide, by decide, by decide, by decide⟩

theorem isLit_custom {d : JVal} (hd : d.WFt tc) (h : d.IsLit) : CustomText d.text := by
  obtain ⟨c, cs, h1, -, h2, h3, -⟩ := isLit_head hd h
  rw [h1]
  exact ⟨by simp, by simpa using h2, by simpa using h3⟩

/-- A literal is skipped by `skip_literal` as by `skip_value`. -/
theorem skipLiteral_value (cfg : Cfg) {d : JVal} (hd : d.WFt tc) (h : d.IsLit) (k : Bytes) :
    skipLiteral cfg (d.text ++ k) = skipValue cfg false (d.text ++ k) := by
  obtain ⟨c, cs, h1, h2, h3, h4, h5, h6⟩ := isLit_head hd h
  unfold skipLiteral skipValue
  rw [h1]
  simp only [List.cons_append, deref_cons, Res.ok_bind, if_neg h2, if_neg h3, if_neg h4, if_neg h5]
  by_cases e1 : c = 0x74
  · simp only [if_pos e1]
  by_cases e2 : c = 0x66
  · simp only [if_neg e1, if_pos e2]
  have e3 : c = 0x2D ∨ isDigit c = true := by
    rcases h6 with h | h | h
    · exact absurd h e1
    · exact absurd h e2
    · exact h
  simp only [if_neg e1, if_neg e2, if_pos e3]

theorem isLit_ne {d : JVal} (h : d.IsLit) : d ≠ .null ∧ ∀ b, d ≠ .str b := by
  match d with
  | .tru | .fls | .num _ => exact ⟨by simp, by simp⟩

theorem skipValue_text {cfg : Cfg} {d : JVal} (kq : Bool) (hd : d.WFt tc) (hdep : d.depth < 4294967296) (hne : d ≠ .null)
    (hs : ∀ b, d ≠ .str b) {k : Bytes} (hk : d.closed = false → AfterValue k) (hns : cfg.checked = false → Nonsp k) :
    ∃ r rest, skipValue cfg kq (d.text ++ k) = .ok (r, rest) ∧ r.text = d.text ∧ TrimEq rest k := by
  have hlit : d.isLiteral = true → d.closed = false := by cases d <;> simp [JVal.isLiteral, JVal.closed]
  obtain ⟨r, h1, h2, -⟩ := skipValue_before cfg kq d hd hdep k (fun h => hk (hlit h))
    (fun t ht => numEnd_after (hk (by subst ht; rfl))) (fun h => (hns h).ne)
    (fun h h' => ((hns h').room (hk (hlit h))) h') (fun h => absurd h hne)
  refine ⟨r, _, h1, ?_, ?_⟩
  · rw [h2]
    match d with
    | .null => exact absurd rfl hne
    | .str b => exact absurd rfl (hs b)
    | .tru | .fls | .num _ | .arr .. | .obj .. => rfl
  · split
    · exact dropWs_trimEq k
    · exact TrimEq.refl k

theorem str_text_append (b k : Bytes) : (JVal.str b).text ++ k = chQuote :: (b ++ chQuote :: k) := by simp [JVal.text]

theorem readsTxt_ne_null {ki : TxtKind} {d : JVal} {v : Val} (h : ReadsTxt ki d v) : d ≠ .null := by
  cases h <;> first | assumption | exact (isLit_ne (by assumption)).1 | simp

theorem str_size {b : Bytes} (hlen : (JVal.str b).text.length < 2 ^ 63) : b.length < npos := by
  simp only [JVal.text, List.length_cons, List.length_append, List.length_nil] at hlen
  have : (2 : Nat) ^ 63 < npos := by decide
  omega

theorem room_of {cfg : Cfg} {k : Bytes} (ha : AfterValue k) (hns : cfg.checked = false → Nonsp k) : Room' cfg k := fun h => by
  rw [← trimChecked_after ha]
  exact hns h

theorem isLit_tru {d : JVal} (hd : d.WFt tc) (h : d.IsLit) (ht : d.text = txtTrue) : d = .tru := by
  match d with
  | .tru => rfl
  | .fls => simp [JVal.text] at ht
  | .num n =>
    have hn : IsNumber n := by simpa [JVal.WFt] using hd
    have hn' : n = txtTrue := ht
    subst hn'
    obtain ⟨m, i, f, e, hm, hi, _, _, he⟩ := hn
    obtain ⟨y, i', rfl, hy⟩ := isDigits_head (isInt_digits hi)
    exfalso
    rcases hm with rfl | rfl
    · simp at he
      rw [← he.1] at hy
      revert hy
      unfold IsDig
      decide
    · simp at he

theorem parseTxt_sem {cfg : Cfg} {ki : TxtKind} {d : JVal} {v : Val} (h : ReadsTxt ki d v) (hd : d.WFt tc) (hdep : d.depth < 4294967296)
    (hlen : d.text.length < 2 ^ 63) : SemU cfg.checked (parseTxt cfg ki) d v := by
  intro k hk hns
  have hstr : ∀ b, d = .str b → skipString cfg false (d.text ++ k) = .ok ({ text := b, counter := firstEsc b }, k) := by
    rintro b rfl
    rw [str_text_append]
    exact skipString_body cfg (by simpa [JVal.WFt] using hd) (str_size hlen) k
  cases h with
  | rawStr => exact ⟨k, by simp only [parseTxt, hstr _ rfl, Res.ok_bind], TrimEq.refl k⟩
  | @date b t h =>
    have h1 : assertWeak cfg.checked (!((JVal.str b).text ++ k).isEmpty) .unexpectedEndOfData = .ok () := by
      rw [str_text_append]
      cases cfg.checked <;> rfl
    exact ⟨k, by simp only [parseTxt, parseDate, h1, hstr _ rfl, Res.ok_bind, parseTimestamp_reads h], TrimEq.refl k⟩
  | customStr h =>
    exact ⟨k, by simp only [parseTxt, parseCustom, customText, hstr _ rfl, Res.ok_bind, customStart_of cfg h], TrimEq.refl k⟩
  | @customLit c d hc h =>
    obtain ⟨r, rest, h1, h2, h3⟩ := skipValue_text (cfg := cfg) false hd hdep (isLit_ne h).1 (isLit_ne h).2
      (fun hc => (hk (by simp [JVal.ends, hc])).1) hns
    refine ⟨rest, ?_, h3⟩
    match c with
    | .str => exact absurd rfl hc
    | .lit =>
      simp only [parseTxt, parseCustom, customText, skipLiteral_value cfg hd h, h1, Res.ok_bind, h2, customStart_of cfg (isLit_custom hd h)]
    | .any =>
      obtain ⟨c, cs, e1, e2, -⟩ := isLit_head hd h
      have e3 : derefEnd cfg (d.text ++ k) = .ok c := by rw [e1]; rfl
      simp only [parseTxt, parseCustom, customText, e3, Res.ok_bind, if_neg e2, h1, h2, customStart_of cfg (isLit_custom hd h)]
  | raw h1 h2 =>
    obtain ⟨r, rest, h1, h2, h3⟩ := skipValue_text (cfg := cfg) true hd hdep h1 h2 (fun hc => (hk (by simp [JVal.ends, hc])).1) hns
    exact ⟨rest, by simp only [parseTxt, h1, Res.ok_bind, h2], h3⟩
  | @real dbl fmt x neg i fd e r hnt hT he hr hv =>
    have hk' := hk rfl
    obtain ⟨o, h1, h2⟩ := realUnknown_dec (cfg := cfg.real false dbl) rfl (cfg.real_dig false dbl).1 (cfg.real_dig false dbl).2.1 hnt
      ((cfg.real_dig false dbl).2.2 ▸ hT) he hr hv (numEnd_after hk'.1) (fun h => ⟨by
        cases hck : cfg.checked
        · exact absurd h (hns hck).ne
        · exact hck, Or.inr ((hk'.2 h).2 rfl)⟩)
    have h3 : assertWeak cfg.checked (endOfItem k) .invalidEndOfValue = .ok () := by
      rw [(endOfItem_after hk'.1).1, assertWeak_tt]
    have h4 : parseReal cfg dbl (x ++ k) = .ok (r, k) := by
      unfold parseReal
      rw [h1, Res.ok_bind]
      dsimp only
      rw [h3, Res.ok_bind, h2]
    exact ⟨k, by simp only [parseTxt, JVal.text, h4, Res.ok_bind], TrimEq.refl k⟩
  | @quoted al l b x h =>
    have hk' := hk (by simp [JVal.ends, Val.bareLit])
    have hne : k ≠ [] := fun h => by have := (hk'.2 h).1; simp [Val.bareLit] at this
    obtain ⟨r, h1, h2⟩ := parseLit_quoted al h hk'.1 (room_of hk'.1 hns) hne
    rw [str_text_append]
    exact ⟨r, by simp only [parseTxt, h1, Res.ok_bind], h2⟩
  | @bare l d x hl h =>
    have hk' := hk (by simp [JVal.ends, Val.bareLit])
    have hne : k ≠ [] := fun h => by have := (hk'.2 h).1; simp [Val.bareLit] at this
    obtain ⟨r, h1, h2⟩ := parseLit_bare h hk'.1 (room_of hk'.1 hns) hne
    exact ⟨r, by simp only [parseTxt, h1, Res.ok_bind], h2⟩

/-- From a range: the text, and whether it had quotes. -/
theorem parseTxtKnown_sem {cfg : Cfg} {ki : TxtKind} {d : JVal} {v : Val} (h : ReadsTxt ki d v) (hd : d.IsLit → d.WFt tc) {r : Range}
    (ht : r.text = rangeText false d) (hq : r.quoted = headIs (· == chQuote) d.text) (hp : NumPos d r.dec r.exp) {after : Bytes}
    (ha : ∀ x, d = .num x → NumEnd after) (hne : after ≠ [])
    (hu : cfg.checked = true ∨ v.noNone = true ∧ (d = .tru ∨ d = .str txtTrue → r.counter ≠ 0)) : parseTxtKnown cfg ki r after = .ok v := by
  cases h with
  | rawStr => simp only [parseTxtKnown, ht, rangeText, Bool.false_eq_true, if_false]
  | @date b t h =>
    have h1 : assertWeak cfg.checked (!b.isEmpty) .unexpectedEndOfData = .ok () := by
      have := isUtcText_ne h
      cases b with
      | nil => exact absurd rfl this
      | cons => cases cfg.checked <;> rfl
    simp only [parseTxtKnown, parseDateKnown, ht, rangeText, Bool.false_eq_true, if_false, h1, Res.ok_bind, parseTimestamp_reads h]
  | customStr h =>
    simp only [parseTxtKnown, parseCustomKnown, ht, rangeText, Bool.false_eq_true, if_false, Res.ok_bind, customStart_of cfg h,
      reduceCtorEq, false_and]
  | @customLit c d hc h =>
    have e0 : rangeText false d = d.text := by
      match d with
      | .tru | .fls | .num _ => rfl
    obtain ⟨x, xs, e1, e2, -⟩ := isLit_head (hd h) h
    have e3 : r.quoted = false := by
      rw [hq, e1]
      simpa [headIs] using e2
    simp only [parseTxtKnown, parseCustomKnown, ht, e0, e3, Bool.false_eq_true, and_false, if_false, Res.ok_bind,
      customStart_of cfg (isLit_custom (hd h) h)]
  | @raw d h1 h2 =>
    have e0 : rangeText false d = d.text := by
      match d with
      | .null => exact absurd rfl h1
      | .str b => exact absurd rfl (h2 b)
      | .tru | .fls | .num _ | .arr .. | .obj .. => rfl
    simp only [parseTxtKnown, ht, e0]
  | @real dbl fmt x neg i fd e v hnt hT he hr hv =>
    obtain ⟨f, ex, hi, hf, hx, rfl⟩ := hnt
    obtain ⟨p1, p2⟩ := hp neg i f ex rfl hi (fracDigits_isFrac hf) (expDenotes_isExp hx)
    obtain ⟨o, h1, h2⟩ := realKnown_dec (cfg := cfg.real false dbl) rfl (cfg.real_dig false dbl).2.1 hi hf hx
      ((cfg.real_dig false dbl).2.2 ▸ hT) he hr hv (ha _ rfl) (fun _ _ => hne)
    have h3 : realKnown (cfg.real false dbl) r after = .ok o := by
      rw [realKnown_congr _ (r' := numRange neg i f ex) ht p1 p2, h1]
    simp only [parseTxtKnown, parseRealKnown, h3, Res.ok_bind, h2]
  | @quoted al l b x h =>
    have h1 : parseLitKnown cfg l r = .ok x := parseLitKnown_sem h ht (by
      refine hu.imp id fun hu => ?_
      cases h with
      | tru => exact Or.inl ⟨rfl, hu.2 (Or.inr rfl)⟩
      | fls => simp [Val.noNone] at hu
      | int => exact Or.inr (Or.inr ⟨_, rfl⟩))
    simp only [parseTxtKnown, h1, Res.ok_bind]
  | @bare l d x hl h =>
    have e0 : rangeText false d = d.text := by
      match d with
      | .tru | .fls | .num _ => rfl
    have h1 : parseLitKnown cfg l r = .ok x := parseLitKnown_sem h (ht.trans e0) (by
      refine hu.imp id fun hu => ?_
      generalize he : d.text = txt at h
      cases h with
      | tru => exact Or.inl ⟨rfl, hu.2 (Or.inl (isLit_tru (hd hl) hl he))⟩
      | fls => simp [Val.noNone] at hu
      | int => exact Or.inr (Or.inr ⟨_, rfl⟩))
    simp only [parseTxtKnown, h1, Res.ok_bind]

end Verif
