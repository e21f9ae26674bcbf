import Verif.Proof.CommentTypedTuple

/-!
# Typed parsing with comments: scalars, and the induction over what is read
-/

namespace Verif

open Spec

variable {p : Cmt} {G L : Bytes → Prop}

/-! ## Scalars -/

theorem wfc_num {cc : UInt8} {d : JVal} (hd : d.WFc cc G L) : ∀ n, d = .num n → IsNumber n := by
  rintro n rfl
  simpa [JVal.WFc] using hd

theorem wfc_lit {cc : UInt8} {d : JVal} (hd : d.WFc cc G L) (h : d.IsLit) : d.WFt false := by
  match d with
  | .tru | .fls => simp [JVal.WFt]
  | .num n => simpa [JVal.WFt] using wfc_num hd n rfl

theorem endOfItem_token {t : Bytes} (ht : EndToken t) : endOfItem t = true := by
  rcases ht with rfl | ⟨x, t, rfl, rfl | rfl | rfl⟩ <;> rfl

/-- What follows a number or `null`. -/
theorem Pol.tight (P : Pol p G L) {d : JVal} (hd : d.tight = true) {g t : Bytes} (hg : Behind (cmtChar p) G d g) (ht : EndToken t) :
    NoDig (g ++ t) ∧ endOfItem (g ++ t) = true := by
  have h := P.head_rest hg.1 ht
  cases hgt : g ++ t with
  | nil => exact ⟨by simp [NoDig], rfl⟩
  | cons x xs =>
    rw [hgt] at h
    rcases h x rfl with h | ⟨rfl, h⟩ | h
    · rcases h with rfl | rfl | rfl | rfl <;> exact ⟨by simp [NoDig, IsDig, UInt8.le_iff_toNat_le], rfl⟩
    · exact absurd h (hg.2 hd)
    · rcases h with rfl | rfl | rfl <;> exact ⟨by simp [NoDig, IsDig, UInt8.le_iff_toNat_le], rfl⟩

theorem unsigned_fits (cfg : Cfg) {bits : Nat} (hb : bits = 8 ∨ bits = 16 ∨ bits = 32 ∨ bits = 64) (rc : Bool) {ds c : Bytes}
    (hd : IsInt ds) (hc : NoDig c) (hlt : decVal ds < 2 ^ bits) : unsignedNotKnown cfg bits rc (ds ++ c) = .ok (decVal ds, c) := by
  have h := parseInt_numeral_before cfg ⟨bits, false⟩ hb (decVal ds) (by
    simp only [IntTy.InRange, Bool.false_eq_true, if_false]
    exact ⟨by omega, by exact_mod_cast hlt⟩) rc ds (by
    unfold IsNumeral
    rw [if_neg (by omega)]
    exact ⟨hd, rfl⟩)
  have hdig := isDigits_of_isInt hd
  have h2 := h [chComma] (by simp [NoDig, IsDig, UInt8.le_iff_toNat_le]) rfl (by simp) (fun _ => by simp [dropWs])
  simp only [parseInt, Bool.false_eq_true, if_false] at h2
  rw [parseUnsigned_digits cfg bits rc ds [chComma] hd (by simp [NoDig, IsDig, UInt8.le_iff_toNat_le]) rfl,
    unsignedNotKnown_digits cfg bits rc ds _ hdig (by simp [NoDig, IsDig, UInt8.le_iff_toNat_le])] at h2
  rw [unsignedNotKnown_digits cfg bits rc ds c hdig hc]
  cases rc with
  | false =>
    simp only [Bool.false_eq_true, if_false, Res.bind, if_true, Res.ok.injEq, Prod.mk.injEq, and_true] at h2 ⊢
    exact_mod_cast h2
  | true =>
    simp only [if_true] at h2 ⊢
    split at h2
    · rename_i hh
      rw [if_pos hh]
      simp only [Res.bind, if_true, Res.ok.injEq, Prod.mk.injEq, and_true] at h2 ⊢
      exact_mod_cast h2
    · simp [Res.bind] at h2

theorem parseSignedC_digits (P : Pol p G L) (cfg : Cfg) {bits : Nat} (hb : bits = 8 ∨ bits = 16 ∨ bits = 32 ∨ bits = 64) (rc neg : Bool)
    {ds g t : Bytes} (hd : IsInt ds) (hg : G g) (ht : EndToken t) (hc : NoDig (g ++ t)) (hlt : decVal ds < 2 ^ bits) :
    parseSignedC p cfg bits rc ((if neg then 0x2D :: ds else ds) ++ (g ++ t))
      = .ok (toSigned bits (decVal ds) (if neg then -1 else 1), t) := by
  unfold parseSignedC
  have hdig := isDigits_of_isInt hd
  have hne : ds ≠ [] := hdig.1
  have h1 : ((if neg then 0x2D :: ds else ds) ++ (g ++ t)).isEmpty = false := by
    cases neg <;> cases ds <;> simp_all
  have h2 : validateSignedFirst cfg ((if neg then 0x2D :: ds else ds) ++ (g ++ t))
      = .ok ((if neg then -1 else 1), ds ++ (g ++ t)) := by
    cases neg with
    | true => exact validateSignedFirst_minus cfg (ds ++ (g ++ t))
    | false => exact validateSignedFirst_digits cfg ds (g ++ t) hd hc
  simp only [h1, Bool.not_false, ensure_true, Res.ok_bind, h2, unsigned_fits cfg hb rc hd hc hlt, P.trim_rest hg ht (Or.inl rfl),
    endOfItem_token ht]

theorem parseIntC_numeral (P : Pol p G L) (cfg : Cfg) (ty : IntTy) (hty : ty.Valid) (v : Int) (hv : ty.InRange v) (rc : Bool)
    (txt : Bytes) (hx : IsNumeral txt v) {g t : Bytes} (hg : G g) (ht : EndToken t) (hc : NoDig (g ++ t)) (he : endOfItem (g ++ t) = true) :
    ∃ r, parseIntC p cfg ty rc (txt ++ (g ++ t)) = .ok (v, r) ∧ (r = g ++ t ∨ r = t) := by
  obtain ⟨bits, signed⟩ := ty
  have hb : bits = 8 ∨ bits = 16 ∨ bits = 32 ∨ bits = 64 := hty
  cases signed with
  | false =>
    unfold parseIntC
    simp only [Bool.false_eq_true, if_false]
    simp only [IntTy.InRange, Bool.false_eq_true, if_false] at hv
    have hpi : (2 : Int) ^ bits = ((2 ^ bits : Nat) : Int) := by norm_cast
    rw [hpi] at hv
    unfold IsNumeral at hx
    rw [if_neg (by omega)] at hx
    rw [parseUnsigned_digits cfg bits rc txt _ hx.1 hc he, unsigned_fits cfg hb rc hx.1 hc (by omega)]
    simp only [Res.bind, if_true]
    rw [hx.2]
    exact ⟨_, rfl, Or.inl rfl⟩
  | true =>
    have hpw : (2 : Nat) ^ bits = 2 * 2 ^ (bits - 1) := by
      rcases hb with rfl | rfl | rfl | rfl <;> decide
    unfold parseIntC
    simp only [if_true]
    simp only [IntTy.InRange, if_true] at hv
    have hpi : (2 : Int) ^ (bits - 1) = ((2 ^ (bits - 1) : Nat) : Int) := by norm_cast
    rw [hpi] at hv
    unfold IsNumeral at hx
    split at hx
    · obtain ⟨ds, rfl, h1, h2⟩ := hx
      have := parseSignedC_digits P cfg hb rc true h1 hg ht hc (by omega)
      simp only [if_true] at this
      rw [this, toSigned_neg hb (by omega), h2]
      exact ⟨_, by simp, Or.inr rfl⟩
    · have := parseSignedC_digits P cfg hb rc false hx.1 hg ht hc (by omega)
      simp only [Bool.false_eq_true, if_false] at this
      rw [this, toSigned_pos hb (by omega), hx.2]
      exact ⟨_, rfl, Or.inr rfl⟩

theorem parseBoolC_sem (P : Pol p G L) {cfg : Cfg} (hck : cfg.checked = true) (b : Bool) {g t : Bytes} (hg : G g) (ht : EndToken t) :
    parseBoolC p cfg ((if b then JVal.tru else JVal.fls).text ++ (g ++ t)) = .ok (b, t) := by
  have h1 := P.trim_rest hg ht (Or.inl rfl)
  have h2 := endOfItem_token ht
  cases b <;> simp [parseBoolC, eatBool, hck, JVal.text, List.isPrefixOf, h1, h2]

theorem eatNullC_null (P : Pol p G L) {g t : Bytes} (hg : Behind (cmtChar p) G .null g) (ht : EndToken t) :
    eatNullC p (JVal.null.text ++ (g ++ t)) = .ok (some t) := by
  have h1 := P.trim_rest hg.1 ht (Or.inl rfl)
  have h2 := (P.tight rfl hg ht).2
  simp [eatNullC, JVal.text, List.isPrefixOf, h1, h2, headIs, isTokenAfterValue]

theorem eatNullC_value {cc : UInt8} {d : JVal} (hd : d.WFc cc G L) (hne : d ≠ .null) (k : Bytes) : eatNullC p (d.text ++ k) = .ok none := by
  obtain ⟨c, cs, h, -, h2, h3, -⟩ := text_headC d hd
  have hc := h3 hne
  have : (0x6E == c) = false := by simpa using fun h => hc h.symm
  simp [eatNullC, h, headIs, h2, List.isPrefixOf, this]

theorem skipValueC_text (P : Pol p G L) (excl kq : Bool) {cc : UInt8} {d : JVal} (hd : d.WFc cc G L) (hdep : d.depth < 4294967296)
    (hne : d ≠ .null) (hs : ∀ b, d ≠ .str b) {g t : Bytes} (hg : G g) (ht : EndToken t) :
    ∃ r rest, skipValueCmt p excl kq (d.text ++ (g ++ t)) = .ok (r, rest) ∧ r.text = d.text ∧ (rest = g ++ t ∨ rest = t) := by
  obtain ⟨r, h1, h2, -⟩ := skipValueCmt_exact (G := G) (G' := G) excl kq P.loop (fun g rest h => P.trim rest h)
    (fun g x g' h e => P.head (e ▸ h)) d (wfc_wfg P d hd) hdep g t hg ht (fun h => absurd h hne)
  refine ⟨r, _, h1, ?_, by split <;> simp⟩
  rw [h2]
  match d with
  | .null => exact absurd rfl hne
  | .str b => exact absurd rfl (hs b)
  | .tru | .fls | .num _ | .arr .. | .obj .. => rfl

/-- The text of the literal, with whatever is around it skipped. -/
theorem parseLitC_gen {cfg : Cfg} {al : Bool} {l : LitTy} {txt : Bytes} {x : Lit} (h : LitText l txt x) {s c c' c'' : Bytes}
    (hs : skipQuote cfg al s = .ok (txt ++ c)) (hc : NoDig c) (hq : skipQuote cfg al c = .ok c') (htm : trimCmt p c' = .ok c'')
    (he : endOfItem c' = true ∧ endOfItem c'' = true) (hne : c' ≠ []) :
    ∃ r, parseLitC p cfg al l s = .ok (x, r) ∧ (r = c' ∨ r = c'') := by
  have hbool : ∀ b : Bool, skipQuote cfg al s = .ok ((if b then txtTrue else txtFalse) ++ c) →
      parseBoolQC p cfg al s = .ok (b, c'') := by
    intro b hs
    unfold parseBoolQC
    simp only [hs, Res.ok_bind, eatBool_text, hq, htm, he.2, ensure_true]
  cases h with
  | tru => exact ⟨_, by simp only [parseLitC, hbool true hs, Res.ok_bind], Or.inr rfl⟩
  | fls => exact ⟨_, by simp only [parseLitC, hbool false hs, Res.ok_bind], Or.inr rfl⟩
  | @int t rc txt i ht hv hx =>
    obtain ⟨bits, sg⟩ := t
    cases sg with
    | true =>
      obtain ⟨neg, ds, rfl, h1, h2, h3⟩ := signed_parts ht hv hx
      refine ⟨c'', ?_, Or.inr rfl⟩
      have : parseSignedQC p cfg al bits rc s = .ok (i, c'') := by
        unfold parseSignedQC
        simp only [hs, Res.ok_bind, validate_parts cfg h1 hc, unsignedNotKnown_fits cfg ht rc h1 hc h2, hq, htm, he.2, ensure_true, h3]
      simp only [parseLitC, if_true, this, Res.ok_bind]
    | false =>
      obtain ⟨h1, h2, h3⟩ := unsigned_parts hv hx
      refine ⟨c', ?_, Or.inl rfl⟩
      obtain ⟨y, ys, hy⟩ := isDigits_head (isInt_digits h1)
      have e1 : assertWeak cfg.checked (!(txt ++ c).isEmpty) .unexpectedEndOfData = .ok () := by
        rw [hy.1]; cases cfg.checked <;> rfl
      have e2 : (whenChecked cfg do
          let c ← deref (txt ++ c)
          ensure (isDigit c) .invalidNumber) = .ok () := by
        rw [hy.1]
        unfold whenChecked
        cases cfg.checked <;> simp [(isDigit_iff y).2 hy.2]
      have e3 : assertWeak cfg.checked (!c'.isEmpty) .unexpectedEndOfData = .ok () := by
        cases c' with
        | nil => exact absurd rfl hne
        | cons => cases cfg.checked <;> rfl
      have : parseUnsignedQ cfg al bits rc s = .ok (i, c') := by
        unfold parseUnsignedQ
        simp only [hs, Res.ok_bind, e1, e2, unsignedNotKnown_fits cfg ht rc h1 hc h2, hq, e3, he.1, assertWeak_tt, h3]
      simp only [parseLitC, Bool.false_eq_true, if_false, this, Res.ok_bind]

/-- Comments stand only behind whitespace. -/
def Apart (p : Cmt) (G : Bytes → Prop) : Prop := ∀ g, G g → g.head? ≠ some (cmtChar p)

theorem parseTxtC_sem (P : Pol p G L) {cfg : Cfg} (hck : cfg.checked = true) {ki : TxtKind} (hq : Apart p G ∨ (Ty.txt ki).unquoted = true) {d : JVal} {v : Val}
    (h : ReadsTxt ki d v) (hd : d.WFc (cmtChar p) G L) (hdep : d.depth < 4294967296) (hlen : d.text.length < 2 ^ 63) :
    SemUC p G (parseTxtC p cfg ki) d v := by
  intro g t hg ht hend
  have hstr : ∀ b, d = .str b → skipString cfg false (d.text ++ (g ++ t)) = .ok ({ text := b, counter := firstEsc b }, g ++ t) := by
    rintro b rfl
    rw [str_text_append]
    exact skipString_body cfg (by simpa [JVal.WFc] using hd) (str_size hlen) (g ++ t)
  cases h with
  | rawStr => exact ⟨g ++ t, by simp only [parseTxtC, parseTxt, hstr _ rfl, Res.ok_bind], Or.inl rfl⟩
  | @date b x h =>
    have h1 : assertWeak cfg.checked (!((JVal.str b).text ++ (g ++ t)).isEmpty) .unexpectedEndOfData = .ok () := by
      rw [str_text_append]
      cases cfg.checked <;> rfl
    exact ⟨g ++ t, by simp only [parseTxtC, parseTxt, parseDate, h1, hstr _ rfl, Res.ok_bind, parseTimestamp_reads h], Or.inl rfl⟩
  | customStr h =>
    exact ⟨g ++ t, by simp only [parseTxtC, customTextC, customText, hstr _ rfl, Res.ok_bind, customStart_of cfg h], Or.inl rfl⟩
  | @customLit c d hc h =>
    obtain ⟨r, rest, h1, h2, h3⟩ := skipValueC_text P cfg.exclSpecial false hd hdep (isLit_ne h).1 (isLit_ne h).2 hg.1 ht
    obtain ⟨x, xs, e1, e2, e4, e5, -⟩ := isLit_head (wfc_lit hd h) h
    have e3 : derefEnd cfg (d.text ++ (g ++ t)) = .ok x := by rw [e1]; rfl
    have e6 : headIs (fun c => c == chQuote || c == chLBrack || c == chLBrace) (d.text ++ (g ++ t)) = false := by
      rw [e1]; simp [headIs, e2, e4, e5]
    refine ⟨rest, ?_, h3⟩
    match c with
    | .str => exact absurd rfl hc
    | .lit =>
      simp only [parseTxtC, customTextC, skipLiteralCmt, e6, Bool.false_eq_true, if_false, h1, Res.ok_bind, h2,
        customStart_of cfg (isLit_custom (wfc_lit hd h) h)]
    | .any =>
      simp only [parseTxtC, customTextC, e3, Res.ok_bind, if_neg e2, h1, h2, customStart_of cfg (isLit_custom (wfc_lit hd h) h)]
  | raw h1 h2 =>
    obtain ⟨r, rest, h1, h2, h3⟩ := skipValueC_text P cfg.exclSpecial true hd hdep h1 h2 hg.1 ht
    exact ⟨rest, by simp only [parseTxtC, h1, Res.ok_bind, h2], h3⟩
  | @real dbl fmt x neg i fd e r hnt hT he hr hv =>
    obtain ⟨o, h1, h2⟩ := realUnknown_dec (cfg := cfg.real false dbl) rfl (cfg.real_dig false dbl).1 (cfg.real_dig false dbl).2.1 hnt
      ((cfg.real_dig false dbl).2.2 ▸ hT) he hr hv (P.numEnd hg.1 ht) (fun h => ⟨hck, Or.inr ((hend h).2 rfl)⟩)
    have h3 : assertWeak cfg.checked (endOfItem (g ++ t)) .invalidEndOfValue = .ok () := by
      rw [(P.tight rfl hg ht).2, assertWeak_tt]
    have h4 : parseReal cfg dbl (x ++ (g ++ t)) = .ok (r, g ++ t) := by
      unfold parseReal
      rw [h1, Res.ok_bind]
      dsimp only
      rw [h3, Res.ok_bind, h2]
    exact ⟨g ++ t, by simp only [parseTxtC, parseTxt, JVal.text, h4, Res.ok_bind], Or.inl rfl⟩
  | @quoted al l b x h =>
    have hA : Apart p G := hq.resolve_right (by simp [Ty.unquoted])
    have hti := P.tight (d := .null) rfl ⟨hg.1, fun _ => hA g hg.1⟩ ht
    have hne : g ++ t ≠ [] := fun e => by simpa [Val.bareLit] using (hend e).1
    obtain ⟨r, h1, h2⟩ := parseLitC_gen (p := p) h (skipQuote_quote cfg al _) (noDig_quote (g ++ t)) (skipQuote_quote cfg al (g ++ t))
      (P.trim_rest hg.1 ht (Or.inl rfl)) ⟨hti.2, endOfItem_token ht⟩ hne
    exact ⟨r, by simp only [parseTxtC, str_text_append, h1, Res.ok_bind], h2⟩
  | @bare l d x hl h =>
    have hA : Apart p G := hq.resolve_right (by simp [Ty.unquoted])
    have hti := P.tight (d := .null) rfl ⟨hg.1, fun _ => hA g hg.1⟩ ht
    have hne : g ++ t ≠ [] := fun e => by simpa [Val.bareLit] using (hend e).1
    obtain ⟨c, cs, e1, e2⟩ := litText_head h
    have hs : skipQuote cfg false (d.text ++ (g ++ t)) = .ok (d.text ++ (g ++ t)) := by
      rw [e1]; exact skipQuote_other cfg e2 _
    have hs2 : skipQuote cfg false (g ++ t) = .ok (g ++ t) := by
      cases e : g ++ t with
      | nil => exact absurd e hne
      | cons y k =>
        refine skipQuote_other cfg ?_ k
        rintro rfl
        rw [e] at hti
        exact absurd hti.2 (by simp only [endOfItem]; decide)
    obtain ⟨r, h1, h2⟩ := parseLitC_gen (p := p) h hs hti.1 hs2 (P.trim_rest hg.1 ht (Or.inl rfl)) ⟨hti.2, endOfItem_token ht⟩ hne
    exact ⟨r, by simp only [parseTxtC, h1, Res.ok_bind], h2⟩

/-! ## The induction -/

/-- What is asked of a value to be parsed. -/
structure DOkC (cc : UInt8) (G L : Bytes → Prop) (d : JVal) : Prop where
  wf : d.WFc cc G L
  depth : d.depth < 4294967296
  size : d.text.length < 2 ^ 63

/-- Same, for elements. -/
structure EOkC (cc : UInt8) (G L : Bytes → Prop) (d : JElems) : Prop where
  wf : d.WFc cc G L
  depth : d.depth < 4294967295
  size : d.text.length < 2 ^ 63

/-- Same, for members. -/
structure MOkC (cc : UInt8) (G L : Bytes → Prop) (d : JMems) : Prop where
  wf : d.WFc cc G L
  depth : d.depth < 4294967295
  size : d.text.length < 2 ^ 63

variable {cc : UInt8}

theorem DOkC.elems (P : Pol p G L) {w : Bytes} {es : JElems} (h : DOkC cc G L (.arr w es)) : EOkC cc G L es := by
  obtain ⟨h1, h2, h3⟩ := h
  simp only [JVal.depth] at h2
  refine ⟨?_, by omega, ?_⟩
  · match es with
    | .nil => simp [JElems.WFc]
    | .cons .. =>
      simp only [JVal.WFc] at h1
      simp only [JElems.WFc]
      exact ⟨P.lead h1.2.1, h1.2.2⟩
  · match es with
    | .nil => simp [JElems.text]
    | .cons .. =>
      simp only [JVal.text, JElems.text, List.length_cons, List.length_append, List.length_nil] at h3 ⊢
      omega

theorem DOkC.mems {w : Bytes} {es : JMems} (h : DOkC cc G L (.obj w es)) : MOkC cc G L es := by
  obtain ⟨h1, h2, h3⟩ := h
  simp only [JVal.depth] at h2
  refine ⟨?_, by omega, ?_⟩
  · match es with
    | .nil => simp [JMems.WFc]
    | .cons .. =>
      simp only [JVal.WFc] at h1
      simp only [JMems.WFc]
      exact h1.2
  · match es with
    | .nil => simp [JMems.text]
    | .cons .. =>
      simp only [JVal.text, JMems.text, List.length_cons, List.length_append, List.length_nil] at h3 ⊢
      omega

theorem EOkC.cons {pre post : Bytes} {d : JVal} {tl : JElems} (h : EOkC cc G L (.cons pre d post tl)) :
    DOkC cc G L d ∧ EOkC cc G L tl := by
  obtain ⟨h1, h2, h3⟩ := h
  simp only [JElems.WFc] at h1
  simp only [JElems.depth] at h2
  simp only [JElems.text, List.length_cons, List.length_append] at h3
  exact ⟨⟨h1.2.1, by omega, by omega⟩, ⟨h1.2.2.2, by omega, by omega⟩⟩

theorem MOkC.cons {pre n pc qc post : Bytes} {d : JVal} {tl : JMems} (h : MOkC cc G L (.cons pre n pc qc d post tl)) :
    DOkC cc G L d ∧ MOkC cc G L tl ∧ n.length < 2 ^ 63 := by
  obtain ⟨h1, h2, h3⟩ := h
  simp only [JMems.WFc] at h1
  simp only [JMems.depth] at h2
  simp only [JMems.text, List.length_cons, List.length_append] at h3
  exact ⟨⟨h1.2.2.2.2.1, by omega, by omega⟩, ⟨h1.2.2.2.2.2.2, by omega, by omega⟩, by omega⟩

theorem MOkC.get {jm : JMems} (h : MOkC cc G L jm) {n : Bytes} {d : JVal} (hg : jm.get? n = some d) : DOkC cc G L d := by
  match jm with
  | .nil => simp [JMems.get?, JMems.toList] at hg
  | .cons pre m pc qc v post tl =>
    rw [JMems_get?_cons] at hg
    split at hg
    · obtain rfl : v = d := by simpa using hg
      exact h.cons.1
    · exact MOkC.get h.cons.2.1 hg

/-- The value is read with both kinds of bounds. -/
def SemC (p : Cmt) (G : Bytes → Prop) (t : TCfg) (Δ : Env) (f : Nat) (ty : Ty) (d : JVal) (v : Val) : Prop :=
  SemUC p G (parseUC p t Δ f ty) d v ∧ SemKC (parseKC p t Δ f ty) d v

/-- A container read from its range. -/
theorem storedC_text {d : JVal} {r : Range} {a : Bytes} (h : StoredC d r a) (hs : ∀ b, d ≠ .str b) : r.text = d.text := by
  obtain ⟨h1, h2, -⟩ := h
  rw [h2]
  match d with
  | .null => exact absurd rfl h1
  | .str b => exact absurd rfl (hs b)
  | .tru | .fls | .num _ | .arr .. | .obj .. => rfl

theorem inside_storedC (t : TCfg) {d : JVal} {r : Range} {a : Bytes} (h : StoredC d r a) (hs : ∀ b, d ≠ .str b) (hn : ∀ b, d ≠ .num b) :
    t.inside r = t := by
  refine t.inside_unquoted (h.2.2.2.2.1.trans ?_)
  match d with
  | .str b => exact absurd rfl (hs b)
  | .num b => exact absurd rfl (hn b)
  | .null | .tru | .fls => rfl
  | .arr w es => cases es <;> simp [JVal.text, headIs]
  | .obj w ms => cases ms <;> simp [JVal.text, headIs]

/-- The alternative for a stored range. -/
theorem altOfRange_readsC {Δ : Env} (henv : EnvOk Δ) {nm : List Bytes → Bytes → Prop} {ea : Bool} (cfg : Cfg) {i k : Nat}
    {alts : List Ty} {ty : Ty} {d : JVal} {v : Val} (hi : Δ i = .var alts) (hty : alts[k]? = some ty) (h : Reads Δ nm ea ty d v)
    (hd : ∀ n, d = .num n → IsNumber n) {r : Range} {a : Bytes} (hst : StoredC d r a) : altOfRange cfg Δ alts r = .ok (k, ty) := by
  have hq := hst.2.2.2.2.1
  unfold altOfRange
  by_cases hs : d.jkind = .string
  · rw [hq, (headIs_quote_num hd hst.1).2 hs, if_pos rfl]
    simp only [altOfBase, findAlt_reads henv hi hty h (b := .string) (by rw [hs]; rfl)]
  · have : headIs (· == chQuote) d.text = false := by
      rw [Bool.eq_false_iff]
      exact fun hc => hs ((headIs_quote_num hd hst.1).1 hc)
    rw [hq, this, if_neg (by simp), storedC_text hst (by rintro b rfl; exact hs rfl)]
    obtain ⟨c, cs, h1, h2⟩ := altOfChar_num henv cfg hi hty h hd hst.1
    rw [h1]
    exact h2

/-- An object or array is not read as a real. -/
theorem reads_bareRealC {Δ : Env} {nm : List Bytes → Bytes → Prop} {ea : Bool} {d : JVal} (hd : ∀ b, d ≠ .num b) :
    (v : Val) → {ty : Ty} → Reads Δ nm ea ty d v → v.bareReal = false
  | .bool _, _, _ | .int _, _, _ | .str _, _, _ | .txt _, _, _ | .date _, _, _ | .lit _, _, _ | .none, _, _ | .arr _, _, _ | .map _, _, _
  | .cls _, _, _ => rfl
  | .real _, _, h => by
    cases h with
    | txt h =>
      cases h with
      | real => exact absurd rfl (hd _)
  | .some v, _, h => by
    cases h with
    | some _ h => exact reads_bareRealC hd v h
    | txt h => cases h
  | .alt _ v, _, h => by
    cases h with
    | var _ _ _ h => exact reads_bareRealC hd v h
    | ivar _ _ _ _ _ _ h => exact reads_bareRealC hd v h
    | txt h => cases h

/-- A container read from its range. -/
theorem SemUC.stored (P : Pol p G L) {f : Bytes → Res (Val × Bytes)} {d : JVal} {v : Val} (h : SemUC p G f d v)
    (he : EndsWell d v) (hs : ∀ b, d ≠ .str b) {r : Range} {a : Bytes} (hst : StoredC d r a) :
    ∃ r', f r.text = .ok (v, r') := by
  rw [storedC_text hst hs]
  obtain ⟨r', hr', -⟩ := h [] [] ⟨P.nil, by simp⟩ (Or.inl rfl) (fun _ => he)
  simp only [List.append_nil] at hr'
  exact ⟨r', hr'⟩

theorem text_ne_emptyC {d : JVal} (hd : d.WFc cc G L) (k : Bytes) : (d.text ++ k).isEmpty = false := by
  obtain ⟨c, cs, h, -⟩ := text_headC d hd
  rw [h]; rfl

variable {t : TCfg} {Δ : Env}

set_option linter.unusedSectionVars false

section
variable (P : Pol p G L) (hck : t.cfg.checked = true) (hqs : Apart p G ∨ ∀ i, (Δ i).unquoted = true) (henv : EnvOk Δ) {nm : List Bytes → Bytes → Prop} {ea : Bool}
  (hnm : ∀ N n, nm N n → NameOk t N n ∧ (PlainName n ∨ t.escNames = true)) (hea : ea = t.exactAll)
include P hck hqs henv hnm hea

mutual
theorem reads_semC : ∀ {ty d v}, Reads Δ nm ea ty d v → DOkC (cmtChar p) G L d → Apart p G ∨ ty.unquoted = true →
    ∃ f0, ∀ f, f0 ≤ f → SemC p G t Δ f ty d v
  | _, _, _, .tru, hd, hv => by
    refine ⟨1, fun f hf => ?_⟩
    obtain ⟨f, rfl⟩ : ∃ g, f = g + 1 := ⟨f - 1, by omega⟩
    refine ⟨fun g tt hg ht _ => ?_, fun r a hr => ?_⟩
    · have hr := parseBoolC_sem P hck true hg.1 ht
      simp only [if_true] at hr
      exact ⟨tt, by simp only [parseUC, hr, Res.ok_bind], Or.inr rfl⟩
    · have := storedC_text hr (by simp)
      simp [parseKC, t.inside_unquoted (hr.2.2.2.2.1.trans rfl), parseBoolKnown, hck, this, JVal.text]
  | _, _, _, .fls, hd, hv => by
    refine ⟨1, fun f hf => ?_⟩
    obtain ⟨f, rfl⟩ : ∃ g, f = g + 1 := ⟨f - 1, by omega⟩
    refine ⟨fun g tt hg ht _ => ?_, fun r a hr => ?_⟩
    · have hr := parseBoolC_sem P hck false hg.1 ht
      simp only [Bool.false_eq_true, if_false] at hr
      exact ⟨tt, by simp only [parseUC, hr, Res.ok_bind], Or.inr rfl⟩
    · have := storedC_text hr (by simp)
      simp [parseKC, t.inside_unquoted (hr.2.2.2.2.1.trans rfl), parseBoolKnown, hck, this, JVal.text]
  | _, _, _, @Reads.int _ _ _ ity rc txt i hva hr hn, hd, _ => by
    refine ⟨1, fun f hf => ?_⟩
    obtain ⟨f, rfl⟩ : ∃ g, f = g + 1 := ⟨f - 1, by omega⟩
    refine ⟨fun g tt hg ht _ => ?_, fun r a hst => ?_⟩
    · obtain ⟨r, h1, h2⟩ := parseIntC_numeral P t.cfg ity hva i hr rc txt hn hg.1 ht (P.tight rfl hg ht).1 (P.tight rfl hg ht).2
      exact ⟨r, by simp only [parseUC, JVal.text, h1, Res.ok_bind], h2⟩
    · have := storedC_text hst (by simp)
      simp [parseKC, this, JVal.text, parseIntKnown_numeral _ ity hva i hr rc txt hn]
  | _, _, _, @Reads.str _ _ _ ah b s hue, hd, hv => by
    refine ⟨1, fun f hf => ?_⟩
    obtain ⟨f, rfl⟩ : ∃ g, f = g + 1 := ⟨f - 1, by omega⟩
    have hl : b.length < 2 ^ 63 := by
      have := hd.size
      simp only [JVal.text, List.length_cons, List.length_append, List.length_nil] at this
      omega
    refine ⟨fun g tt hg ht _ => ?_, fun r a hst => ?_⟩
    · have := parseStr_body t.cfg ah hue hl (g ++ tt) (Or.inr (Or.inl hck))
      refine ⟨g ++ tt, ?_, Or.inl rfl⟩
      simp only [parseUC, str_text_append, this, Res.ok_bind]
    · obtain ⟨-, h2, -, h4, -⟩ := hst
      obtain ⟨h5, c, rfl⟩ := h4 b rfl
      simp only [rangeText, Bool.false_eq_true, if_false] at h2
      have := parseStrRange_body t.cfg ah hue hl c (Or.inr (Or.inl hck))
      simp only [parseKC]
      rw [parseStrRange_text, h2, h5, this]
      rfl
  | _, _, _, .txt h, hd, hv => by
    refine ⟨1, fun f hf => ?_⟩
    obtain ⟨f, rfl⟩ : ∃ g, f = g + 1 := ⟨f - 1, by omega⟩
    refine ⟨fun g tt hg ht he => ?_, fun r a hst => ?_⟩
    · simpa only [parseUC] using parseTxtC_sem P hck hv h hd.wf hd.depth hd.size g tt hg ht he
    · simpa only [parseKC] using parseTxtKnown_sem h (wfc_lit hd.wf) hst.2.1 hst.2.2.2.2.1 hst.2.2.2.2.2.2.1
        hst.2.2.2.2.2.2.2 hst.2.2.2.2.2.1 (Or.inl hck)
  | _, _, _, .null, hd, hv => by
    refine ⟨1, fun f hf => ?_⟩
    obtain ⟨f, rfl⟩ : ∃ g, f = g + 1 := ⟨f - 1, by omega⟩
    refine ⟨fun g tt hg ht _ => ?_, fun r a hst => absurd rfl hst.1⟩
    exact ⟨tt, by simp only [parseUC, eatNullC_null P hg ht, Res.ok_bind], Or.inr rfl⟩
  | _, d, _, .some hne h, hd, hv => by
    obtain ⟨f0, hf0⟩ := reads_semC h hd (hv.imp_right fun h => by simpa [Ty.unquoted] using h)
    refine ⟨f0 + 1, fun f hf => ?_⟩
    obtain ⟨f, rfl⟩ : ∃ g, f = g + 1 := ⟨f - 1, by omega⟩
    obtain ⟨h1, h2⟩ := hf0 f (by omega)
    refine ⟨fun g tt hg ht he => ?_, fun r a hst => ?_⟩
    · obtain ⟨r, hr, ht⟩ := h1 g tt hg ht he
      exact ⟨r, by simp only [parseUC, eatNullC_value hd.wf hne, Res.ok_bind, hr], ht⟩
    · simp only [parseKC, hst.2.2.1, Bool.false_eq_true, if_false, h2 r a hst, Res.ok_bind]
  | _, _, _, @Reads.arr _ _ _ ty w es vs he h, hd, hv => by
    obtain ⟨f0, hf0⟩ := elems_semC h (hd.elems P) (hv.imp_right fun h => by simpa [Ty.unquoted] using h)
    refine ⟨f0 + 1, fun f hf => ?_⟩
    obtain ⟨f, rfl⟩ : ∃ g, f = g + 1 := ⟨f - 1, by omega⟩
    have hs := parseArrC_sem P t.cfg hd.wf (hf0 f (by omega))
    refine ⟨fun g tt hg ht he => ?_, fun r a hst => ?_⟩
    · simpa only [parseUC] using hs g tt hg ht he
    · obtain ⟨r', hr'⟩ := hs.stored P ⟨rfl, by simp [Val.bareReal]⟩ (by simp) hst
      simp only [parseKC, inside_storedC t hst (by simp) (by simp), hr', Res.ok_bind]
  | _, _, _, @Reads.map _ _ _ ty w ms kvs he h, hd, hv => by
    obtain ⟨f0, hf0⟩ := pairs_semC h hd.mems (hv.imp_right fun h => by simpa [Ty.unquoted] using h)
    refine ⟨f0 + 1, fun f hf => ?_⟩
    obtain ⟨f, rfl⟩ : ∃ g, f = g + 1 := ⟨f - 1, by omega⟩
    have hs := parseMapC_sem P t.cfg hd.wf (hf0 f (by omega))
    refine ⟨fun g tt hg ht he => ?_, fun r a hst => ?_⟩
    · simpa only [parseUC] using hs g tt hg ht he
    · obtain ⟨r', hr'⟩ := hs.stored P ⟨rfl, by simp [Val.bareReal]⟩ (by simp) hst
      simp only [parseKC, inside_storedC t hst (by simp) (by simp), hr', Res.ok_bind]
  | _, _, _, @Reads.obj _ _ _ i ms ex w jm vs hi hpl honce hex h, hd, hv => by
    have hq := hqs.imp_right fun h => h i
    simp only [hi, Shape.unquoted] at hq
    obtain ⟨f0, hf0⟩ := members_semC h hd.mems hq
    refine ⟨f0 + 1, fun f hf => ?_⟩
    obtain ⟨f, rfl⟩ : ∃ g, f = g + 1 := ⟨f - 1, by omega⟩
    have hs := parseObjC_sem P (t := t) (exact := ex || t.exactAll) (henv.nodup i ms ex hi) hd.wf hd.mems.depth hd.size
      (fun n hn => hnm _ n (hpl n hn)) honce (hea ▸ hex) (hf0 f (by omega))
    refine ⟨fun g tt hg ht he => ?_, fun r a hst => ?_⟩
    · obtain ⟨r, hr, htr⟩ := hs g tt hg ht he
      refine ⟨tt, ?_, Or.inr rfl⟩
      simp only [parseUC, hi, text_ne_emptyC hd.wf, Bool.not_false, ensure_true, Res.ok_bind, hr, P.trim_rest hg.1 ht htr]
    · obtain ⟨r', hr'⟩ := hs.stored P ⟨rfl, by simp [Val.bareReal]⟩ (by simp) hst
      have hne := text_ne_emptyC hd.wf []
      rw [List.append_nil, ← storedC_text hst (by simp)] at hne
      simp only [parseKC, inside_storedC t hst (by simp) (by simp), hi, hne, Bool.not_false, ensure_true, Res.ok_bind, hr']
  | _, _, _, @Reads.tup _ _ _ i ts ex w es vs hi h, hd, hv => by
    have hq := hqs.imp_right fun h => h i
    simp only [hi, Shape.unquoted] at hq
    obtain ⟨rest, hre, f0, hf0⟩ := tuple_semC h (hd.elems P) hq
    refine ⟨f0 + 1, fun f hf => ?_⟩
    obtain ⟨f, rfl⟩ : ∃ g, f = g + 1 := ⟨f - 1, by omega⟩
    rw [hea] at hre
    have hs := parseTupC_sem P (cfg := t.cfg) (exact := ex || t.exactAll) hd.wf (hd.elems P).depth (hf0 f (by omega)) hre
    refine ⟨fun g tt hg ht he => ?_, fun r a hst => ?_⟩
    · obtain ⟨r, hr, ht⟩ := hs g tt hg ht he
      exact ⟨r, by simp only [parseUC, hi, hr], ht⟩
    · obtain ⟨r', hr'⟩ := hs.stored P ⟨rfl, by simp [Val.bareReal]⟩ (by simp) hst
      simp only [parseKC, inside_storedC t hst (by simp) (by simp), hi, Res.ok_bind, hr']
  | _, _, _, @Reads.ord _ _ _ i ms ex w es vs hi hms hex h, hd, hv => by
    have hq := hqs.imp_right fun h => h i
    simp only [hi, Shape.unquoted] at hq
    obtain ⟨f0, hf0⟩ := ordered_semC h (hd.elems P) hq
    refine ⟨f0 + 1, fun f hf => ?_⟩
    obtain ⟨f, rfl⟩ : ∃ g, f = g + 1 := ⟨f - 1, by omega⟩
    rw [hea] at hf0
    have hs := parseOrdC_sem P (cfg := t.cfg) (exact := ex || t.exactAll) hd.wf (hd.elems P).depth hms (hf0 f (by omega))
    refine ⟨fun g tt hg ht he => ?_, fun r a hst => ?_⟩
    · obtain ⟨r, hr, htr⟩ := hs g tt hg ht he
      refine ⟨tt, ?_, Or.inr rfl⟩
      simp only [parseUC, hi, text_ne_emptyC hd.wf, Bool.not_false, ensure_true, Res.ok_bind, hr, P.trim_rest hg.1 ht htr]
    · obtain ⟨r', hr'⟩ := hs.stored P ⟨rfl, by simp [Val.bareReal]⟩ (by simp) hst
      have hne := text_ne_emptyC hd.wf []
      rw [List.append_nil, ← storedC_text hst (by simp)] at hne
      simp only [parseKC, inside_storedC t hst (by simp) (by simp), hi, hne, Bool.not_false, ensure_true, Res.ok_bind, hr']
  | _, d, _, @Reads.var _ _ _ i alts n ty _ v hi hty hne h, hd, hv => by
    have hq := hqs.imp_right fun h => h i
    simp only [hi, Shape.unquoted, List.all_eq_true] at hq
    obtain ⟨f0, hf0⟩ := reads_semC h hd (hq.imp_right fun h => h ty (List.mem_of_getElem? hty))
    refine ⟨f0 + 1, fun f hf => ?_⟩
    obtain ⟨f, rfl⟩ : ∃ g, f = g + 1 := ⟨f - 1, by omega⟩
    obtain ⟨h1, h2⟩ := hf0 f (by omega)
    refine ⟨fun g tt hg ht he => ?_, fun r a hst => ?_⟩
    · obtain ⟨r, hr, ht⟩ := h1 g tt hg ht he
      obtain ⟨c, cs, hc, halt⟩ := altOfChar_num henv t.cfg hi hty h (wfc_num hd.wf) hne
      have hdr : derefEnd t.cfg (d.text ++ (g ++ tt)) = .ok c := by rw [hc]; rfl
      exact ⟨r, by simp only [parseUC, hi, hdr, Res.ok_bind, halt, hr], ht⟩
    · simp only [parseKC, hi, altOfRange_readsC henv t.cfg hi hty h (wfc_num hd.wf) hst, Res.ok_bind, h2 r a hst]
  | _, _, _, @Reads.ivar _ _ _ i tag sw alts ty w jm x v hi hpl honce hex hx hty h, hd, hv => by
    have hq := hqs.imp_right fun h => h i
    simp only [hi, Shape.unquoted, Bool.and_eq_true, List.all_eq_true] at hq
    obtain ⟨f0, hf0⟩ := members_semC hx hd.mems (hq.imp_right fun h => by simpa using h.1)
    obtain ⟨f1, hf1⟩ := reads_semC h hd (hq.imp_right fun h => h.2 ty (List.mem_of_getElem? hty))
    refine ⟨max f0 f1 + 1, fun f hf => ?_⟩
    obtain ⟨f, rfl⟩ : ∃ g, f = g + 1 := ⟨f - 1, by omega⟩
    obtain ⟨h1, -⟩ := hf1 f (by omega)
    have hs := parseObjC_sem P (t := t) (exact := t.exactAll) (ms := [tag]) (by simp) hd.wf hd.mems.depth hd.size
      (fun n hn => hnm _ n (hpl n hn)) (by simpa using honce)
      (fun he n hn => ⟨tag, by simp, (hex (hea.trans he) n hn).symm⟩) (hf0 f (by omega))
    have halt : altOfTag t.cfg sw alts (.cls [x]) = .ok (sw x, ty) := by simp only [altOfTag, hty]
    have hen : EndsWell (.obj w jm) v := ⟨reads_bareLit (by simp) (by simp [JVal.IsLit]) _ h, by
      rw [reads_bareRealC (by simp) _ h]; simp⟩
    refine ⟨fun g tt hg ht he => ?_, fun r a hst => ?_⟩
    · obtain ⟨r', hr', -⟩ := hs g tt hg ht (fun _ => ⟨rfl, by simp [Val.bareReal]⟩)
      obtain ⟨r, hr, ht⟩ := h1 g tt hg ht (fun _ => hen)
      exact ⟨r, by simp only [parseUC, hi, text_ne_emptyC hd.wf, Bool.not_false, ensure_true,
        Res.ok_bind, hr', halt, hr], ht⟩
    · obtain ⟨r', hr'⟩ := hs.stored P ⟨rfl, by simp [Val.bareReal]⟩ (by simp) hst
      obtain ⟨r, hr⟩ := h1.stored P hen (by simp) hst
      have hne := text_ne_emptyC hd.wf []
      rw [List.append_nil, ← storedC_text hst (by simp)] at hne
      simp only [parseKC, inside_storedC t hst (by simp) (by simp), hi, hne, Bool.not_false, ensure_true,
        Res.ok_bind, hr', halt, hr]
theorem elems_semC : ∀ {ty es vs}, ReadsElems Δ nm ea ty es vs → EOkC (cmtChar p) G L es → Apart p G ∨ ty.unquoted = true →
    ∃ f0, ∀ f, f0 ≤ f → ElemsSemC p G (parseUC p t Δ f ty) es vs
  | _, _, _, .nil, _, _ => ⟨0, fun _ _ => by simp [ElemsSemC]⟩
  | _, _, _, .cons h1 h2, hd, hv => by
    obtain ⟨a, ha⟩ := reads_semC h1 hd.cons.1 hv
    obtain ⟨b, hb⟩ := elems_semC h2 hd.cons.2 hv
    exact ⟨max a b, fun f hf => ⟨(ha f (by omega)).1, hb f (by omega)⟩⟩
theorem pairs_semC : ∀ {ty ms kvs}, ReadsPairs Δ nm ea ty ms kvs → MOkC (cmtChar p) G L ms → Apart p G ∨ ty.unquoted = true →
    ∃ f0, ∀ f, f0 ≤ f → PairsSemC p G (parseUC p t Δ f ty) ms kvs
  | _, _, _, .nil, _, _ => ⟨0, fun _ _ => by simp [PairsSemC]⟩
  | _, _, _, .cons hu h1 h2, hd, hv => by
    obtain ⟨a, ha⟩ := reads_semC h1 hd.cons.1 hv
    obtain ⟨b, hb⟩ := pairs_semC h2 hd.cons.2.1 hv
    exact ⟨max a b, fun f hf => ⟨hu, hd.cons.2.2, (ha f (by omega)).1, hb f (by omega)⟩⟩
theorem members_semC : ∀ {ms jm vs}, ReadsMembers Δ nm ea ms jm vs → MOkC (cmtChar p) G L jm → Apart p G ∨ (ms.all fun m => m.ty.unquoted) = true →
    ∃ f0, ∀ f, f0 ≤ f → MemSemC p G (parseUC p t Δ f) (parseKC p t Δ f) jm ms vs
  | _, _, _, .nil, _, _ => ⟨0, fun _ _ => by simp [MemSemC]⟩
  | _, _, _, .found hg h1 h2, hd, hv => by
    simp only [List.all_cons, Bool.and_eq_true] at hv
    have hv1 := hv.imp_right And.left
    have hv2 := hv.imp_right And.right
    obtain ⟨a, ha⟩ := reads_semC h1 (hd.get hg) hv1
    obtain ⟨b, hb⟩ := members_semC h2 hd hv2
    refine ⟨max a b, fun f hf => ⟨Or.inl ⟨_, hg, (ha f (by omega)).1, (ha f (by omega)).2, ?_⟩, hb f (by omega)⟩⟩
    rintro rfl
    exact reads_null h1 rfl
  | _, _, _, .absent hg ho h2, hd, hv => by
    simp only [List.all_cons, Bool.and_eq_true] at hv
    have hv1 := hv.imp_right And.left
    have hv2 := hv.imp_right And.right
    obtain ⟨b, hb⟩ := members_semC h2 hd hv2
    exact ⟨b, fun f hf => ⟨Or.inr ⟨hg, ho, rfl⟩, hb f hf⟩⟩
theorem tuple_semC : ∀ {ex ts es vs}, ReadsTuple Δ nm ea ex ts es vs → EOkC (cmtChar p) G L es → Apart p G ∨ ts.all Ty.unquoted = true →
    ∃ rest, TupRest ex rest ∧ ∃ f0, ∀ f, f0 ≤ f → TupSemC p G (parseUC p t Δ f) rest ts es vs
  | _, _, es, _, .nil hex hna, _, _ => ⟨es, ⟨hex, hna⟩, 0, fun _ _ => by simp [TupSemC]⟩
  | _, _, _, _, .cons h1 h2, hd, hv => by
    simp only [List.all_cons, Bool.and_eq_true] at hv
    have hv1 := hv.imp_right And.left
    have hv2 := hv.imp_right And.right
    obtain ⟨a, ha⟩ := reads_semC h1 hd.cons.1 hv1
    obtain ⟨rest, hre, b, hb⟩ := tuple_semC h2 hd.cons.2 hv2
    exact ⟨rest, hre, max a b, fun f hf => ⟨(ha f (by omega)).1, hb f (by omega)⟩⟩
theorem ordered_semC : ∀ {ex idx ms es vs}, ReadsOrdered Δ nm ea ex idx ms es vs → EOkC (cmtChar p) G L es → Apart p G ∨ (ms.all fun m => m.2.unquoted) = true →
    ∃ f0, ∀ f, f0 ≤ f → OrdSemC p G (parseUC p t Δ f) ex idx ms es vs
  | _, _, _, _, _, .nil hex, _, _ => ⟨0, fun _ _ => .nil hex⟩
  | _, _, _, _, _, .skip hlt h2, hd, hv => by
    obtain ⟨b, hb⟩ := ordered_semC h2 hd.cons.2 hv
    exact ⟨b, fun f hf => .skip hlt (hb f hf)⟩
  | _, _, _, _, _, .read hw h1 h2, hd, hv => by
    simp only [List.all_cons, Bool.and_eq_true] at hv
    have hv1 := hv.imp_right And.left
    have hv2 := hv.imp_right And.right
    obtain ⟨a, ha⟩ := reads_semC h1 hd.cons.1 hv1
    obtain ⟨b, hb⟩ := ordered_semC h2 hd.cons.2 hv2
    exact ⟨max a b, fun f hf => .read hw (ha f (by omega)).1 (hb f (by omega))⟩
  | _, _, _, _, _, .gone hw ho h2, hd, hv => by
    simp only [List.all_cons, Bool.and_eq_true] at hv
    have hv1 := hv.imp_right And.left
    have hv2 := hv.imp_right And.right
    obtain ⟨b, hb⟩ := ordered_semC h2 hd hv2
    exact ⟨b, fun f hf => .gone hw ho (hb f hf)⟩
end

end

end Verif
