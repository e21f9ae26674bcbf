import Verif.Proof.Text
import Verif.Proof.ZeroTermArr
import Verif.Proof.ZeroTermReal
import Verif.Proof.ZeroTermLit
import Verif.Proof.Variant

/-!
# Zero terminated documents: members that take the text of a value
-/

namespace Verif

open Spec

variable {tc : Bool}

theorem skipValueZ_text {cfg : Cfg} {d : JVal} (hd : d.WFt tc) (hdep : d.depth < 4294967296) (hne : d ≠ .null)
    (hs : ∀ b, d ≠ .str b) {k : Nat} {q : Bytes} (hk : k ≤ q.length) (hq : d.closed = false → AfterValue q) :
    ∃ r rest, skipValueZ cfg k (d.text ++ q) = .ok (r, rest) ∧ r.text = d.text ∧ TrimEq rest q := by
  have hne' : d.text ≠ [] := by
    obtain ⟨c, cs, h, -⟩ := text_head d hd
    rw [h]; simp
  have hm : moreZ k (d.text ++ q) = true := moreZ_append hk hne'
  unfold skipValueZ
  rw [hm]
  simp only [ensure_true, Res.ok_bind]
  match d with
  | .null => exact absurd rfl hne
  | .str b => exact absurd rfl (hs b)
  | .tru =>
    have h1 := skipBoolZ_spec (k := k) (c := 1) (n := 4) (a := JVal.text .tru) (by decide) (hq rfl)
    have h2 : frontZ (JVal.text .tru ++ q) = chT := rfl
    rw [h2, if_neg (by decide), if_neg (by decide), if_neg (by decide), if_pos rfl, h1]
    exact ⟨_, _, rfl, beforeZ_self _ _, dropWs_trimEq _⟩
  | .fls =>
    have h1 := skipBoolZ_spec (k := k) (c := 0) (n := 5) (a := JVal.text .fls) (by decide) (hq rfl)
    have h2 : frontZ (JVal.text .fls ++ q) = chF := rfl
    rw [h2, if_neg (by decide), if_neg (by decide), if_neg (by decide), if_neg (by decide), if_pos rfl, h1]
    exact ⟨_, _, rfl, beforeZ_self _ _, dropWs_trimEq _⟩
  | .num n =>
    have ht : IsNumber n := by simpa [JVal.WFt] using hd
    obtain ⟨dec, exp, h1, -⟩ := skipNumberZ_spec n q ht (numEnd_after (hq rfl)) hk
    obtain ⟨x, t', rfl, hx⟩ : ∃ x t', n = x :: t' ∧ (x = chMinus ∨ IsDig x) := by
      clear hm h1
      obtain ⟨m, i, f, e, hm, hi, _, _, rfl⟩ := ht
      obtain ⟨y, i', rfl, hy⟩ := isDigits_head (isInt_digits hi)
      rcases hm with rfl | rfl
      · exact ⟨y, _, rfl, Or.inr hy⟩
      · exact ⟨_, _, rfl, Or.inl rfl⟩
    rw [← isDigit_iff] at hx
    have hne : x ≠ chQuote ∧ x ≠ chLBrack ∧ x ≠ chLBrace ∧ x ≠ chT ∧ x ≠ chF ∧ x ≠ chN := by
      rcases hx with rfl | hx
      · decide
      · refine ⟨?_, ?_, ?_, ?_, ?_, ?_⟩ <;> rintro rfl <;> revert hx <;> decide
    have h2 : frontZ (JVal.text (.num (x :: t')) ++ q) = x := rfl
    rw [h2, if_neg hne.1, if_neg hne.2.1, if_neg hne.2.2.1, if_neg hne.2.2.2.1, if_neg hne.2.2.2.2.1,
      if_neg hne.2.2.2.2.2, if_pos hx]
    exact ⟨_, _, h1, beforeZ_self _ _, TrimEq.refl _⟩
  | .arr w es =>
    obtain ⟨br, body, n, h1, h2, h3⟩ := container_loop hd hdep (Or.inl ⟨w, es, rfl⟩)
    have hbr : br = arrBr := by
      rcases h1 with h | ⟨_, _, _, h⟩
      · exact h.1
      · cases h
    subst hbr
    have h4 := skipBracketedZ_of_loop body q n hk h3
    rw [h2]
    have h5 : frontZ (arrBr.primLeft :: body ++ q) = chLBrack := rfl
    rw [h5, if_neg (by decide), if_pos rfl]
    exact ⟨_, _, h4, beforeZ_self (arrBr.primLeft :: body) q, TrimEq.refl _⟩
  | .obj w ms =>
    obtain ⟨br, body, n, h1, h2, h3⟩ := container_loop hd hdep (Or.inr ⟨w, ms, rfl⟩)
    have hbr : br = objBr := by
      rcases h1 with ⟨_, _, _, h⟩ | h
      · cases h
      · exact h.1
    subst hbr
    have h4 := skipBracketedZ_of_loop body q n hk h3
    rw [h2]
    have h5 : frontZ (objBr.primLeft :: body ++ q) = chLBrace := rfl
    rw [h5, if_neg (by decide), if_neg (by decide), if_pos rfl]
    exact ⟨_, _, h4, beforeZ_self (objBr.primLeft :: body) q, TrimEq.refl _⟩

/-- A literal is skipped by `skip_literal` as by `skip_value`. -/
theorem skipLiteralZ_value (cfg : Cfg) {d : JVal} (hd : d.WFt tc) (h : d.IsLit) (k : Nat) (q : Bytes) :
    skipLiteralZ k (d.text ++ q) = skipValueZ cfg k (d.text ++ q) := by
  obtain ⟨c, cs, h1, h2, h3, h4, h5, -⟩ := isLit_head hd h
  have hf : frontZ (d.text ++ q) = c := by rw [h1]; rfl
  unfold skipLiteralZ skipValueZ
  generalize frontZ (d.text ++ q) = x at hf
  subst hf
  simp only [if_neg h2, if_neg h3, if_neg h4, if_neg h5]

theorem strRangeZ_text (b c : Bytes) (n : Nat) :
    ({ s := b ++ chQuote :: c, k := c.length + 1, counter := n } : ZRange).text = b := by
  unfold ZRange.text
  have h1 := beforeZ_self b (chQuote :: c)
  rwa [List.length_cons] at h1

theorem isLit_closed {d : JVal} (h : d.IsLit) : d.closed = false := by
  match d with
  | .tru | .fls | .num _ => rfl

theorem parseTxtZ_sem {cfg : Cfg} {ki : TxtKind} {d : JVal} {v : Val} (h : ReadsTxt ki d v) (hd : d.WFt tc) (hdep : d.depth < 4294967296)
    (hlen : d.text.length < 2 ^ 63) : SemUZ (parseTxtZ cfg ki) d v := by
  intro k q hk hq
  have hstr : ∀ b, d = .str b → ∃ r, skipStringZ cfg k (d.text ++ q) = .ok (r, q) ∧ r.text = b := by
    rintro b rfl
    rw [str_text_append]
    exact ⟨_, skipStringZ_body cfg (by simpa [JVal.WFt] using hd) (str_size hlen) hk, strRangeZ_text _ _ _⟩
  have hne' : d.text ≠ [] := by
    obtain ⟨c, cs, h, -⟩ := text_head d hd
    rw [h]; simp
  have hm : moreZ k (d.text ++ q) = true := moreZ_append hk hne'
  cases h with
  | rawStr =>
    obtain ⟨r, h1, h2⟩ := hstr _ rfl
    exact ⟨q, by simp only [parseTxtZ, h1, Res.ok_bind, h2], TrimEq.refl q⟩
  | date h =>
    obtain ⟨r, h1, h2⟩ := hstr _ rfl
    exact ⟨q, by simp only [parseTxtZ, hm, ensure_true, h1, Res.ok_bind, h2, parseTimestamp_reads h], TrimEq.refl q⟩
  | customStr h =>
    obtain ⟨r, h1, h2⟩ := hstr _ rfl
    exact ⟨q, by simp only [parseTxtZ, customTextZ, h1, Res.ok_bind, h2, customStart_of cfg h], TrimEq.refl q⟩
  | @customLit c d hc h =>
    obtain ⟨r, rest, h1, h2, h3⟩ := skipValueZ_text (cfg := cfg) hd hdep (isLit_ne h).1 (isLit_ne h).2 hk (fun hc => (hq (by simp [JVal.ends, hc])).1)
    refine ⟨rest, ?_, h3⟩
    match c with
    | .str => exact absurd rfl hc
    | .lit =>
      simp only [parseTxtZ, customTextZ, skipLiteralZ_value cfg hd h, h1, Res.ok_bind, h2, customStart_of cfg (isLit_custom hd h)]
    | .any =>
      obtain ⟨c, cs, e1, e2, -⟩ := isLit_head hd h
      have e3 : frontZ (d.text ++ q) = c := by rw [e1]; rfl
      simp only [parseTxtZ, customTextZ, e3, Res.ok_bind, if_neg e2, h1, h2, customStart_of cfg (isLit_custom hd h)]
  | @raw d h1 h2 =>
    obtain ⟨r, rest, e1, e2, e3⟩ := skipValueZ_text (cfg := cfg) hd hdep h1 h2 hk (fun hc => (hq (by simp [JVal.ends, hc])).1)
    have e4 : frontZ (d.text ++ q) ≠ chQuote := by
      obtain ⟨c, cs, h, -⟩ := text_head d hd
      intro hc
      have := (headIs_quote hd h1).1 (by
        rw [h] at hc ⊢
        simp only [List.cons_append, frontZ_cons] at hc
        simp [headIs, hc])
      match d with
      | .str b => exact h2 b rfl
    exact ⟨rest, by simp only [parseTxtZ, rawTextZ, e1, Res.ok_bind, e2, if_neg e4], e3⟩
  | real ht h1 h2 h3 h4 =>
    refine ⟨q, ?_, TrimEq.refl q⟩
    have h5 := parseRealZ_dec ht h1 h2 h3 h4 (hq rfl).1 hk
    simp only [parseTxtZ, JVal.text, h5, Res.ok_bind]
  | @quoted al l b x h =>
    have hq' := hq (by simp [JVal.ends, Val.bareLit])
    obtain ⟨r, h1, h2⟩ := parseLitZ_quoted al h hq'.1 hk
    rw [str_text_append]
    exact ⟨r, by simp only [parseTxtZ, h1, Res.ok_bind], h2⟩
  | @bare l d x hl h =>
    have hq' := hq (by simp [JVal.ends, Val.bareLit])
    obtain ⟨r, h1, h2⟩ := parseLitZ_bare h hq'.1 (hq'.2 rfl (isLit_closed hl))
    exact ⟨r, by simp only [parseTxtZ, h1, Res.ok_bind], h2⟩

theorem parseTxtKnownZ_sem {cfg : Cfg} (hck : cfg.checked = true) {ki : TxtKind} {d : JVal} {v : Val} (h : ReadsTxt ki d v) (hd : d.WFt tc) :
    SemKZ (parseTxtKnownZ cfg ki) d v := by
  rintro r ⟨-, -, aft, h1, h2, ha, hb, h3, hp⟩
  have ht : r.text = rangeText false d := by
    simp only [ZRange.text, h1, h2]
    exact beforeZ_self _ _
  have key := parseTxtKnown_sem (cfg := cfg) h (fun _ => hd) (r := { text := r.text, quoted := r.quoted, dec := r.dec, exp := r.exp }) ht h3 hp
    (after := [chComma]) (fun _ _ => numEnd_after ⟨[], [chComma], by simp [IsWs], rfl, Or.inr ⟨_, _, rfl, Or.inl rfl⟩⟩) (by simp) (Or.inl hck)
  cases h with
  | @real dbl fmt x neg i fd e v hn g1 g2 g3 g4 =>
    obtain ⟨f, ex, hi, hf, hx, rfl⟩ := hn
    obtain ⟨p1, p2⟩ := hp neg i f ex rfl hi (fracDigits_isFrac hf) (expDenotes_isExp hx)
    obtain ⟨o, e1, e2⟩ := realKnown_dec (cfg := Cfg.real {} true dbl) rfl (Cfg.real_dig {} true dbl).2.1 hi hf hx
      ((Cfg.real_dig {} true dbl).2.2 ▸ g1) g2 g3 g4 (numEnd_after (ha rfl)) (fun _ h => absurd h (by simp [Cfg.real]))
    have e3 : behindZ r.k r.s = aft := by rw [h1, h2]; exact behindZ_self _ _
    have e4 : realKnown (Cfg.real {} true dbl) { text := r.text, dec := r.dec, exp := r.exp } aft = .ok o := by
      rw [realKnown_congr _ (r' := numRange neg i f ex) ht p1 p2, e1]
    simp only [parseTxtKnownZ, parseRealKnownZ, e3, e4, Res.ok_bind, e2]
  | rawStr => exact key
  | date => exact key
  | customStr => exact key
  | customLit => exact key
  | raw => exact key
  | quoted h =>
    obtain ⟨c, rfl⟩ := (hb _ rfl).2
    have e1 := parseLitKnownZ_sem h h1 h2 (noDig_quote c)
    simp only [parseTxtKnownZ, e1, Res.ok_bind]
  | @bare l d x hl h =>
    have e0 : rangeText false d = d.text := by
      match d with
      | .tru | .fls | .num _ => rfl
    have e1 := parseLitKnownZ_sem h (e0 ▸ h1) h2 (noDig_after (ha (isLit_closed hl)))
    simp only [parseTxtKnownZ, e1, Res.ok_bind]

end Verif
