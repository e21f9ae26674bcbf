import Verif.Proof.TypedTuple
import Verif.Proof.Text
import Verif.Proof.Variant

/-!
# Typed parsing: the parser computes the meaning of the document
-/

namespace Verif

open Spec

/-- What is asked of a value to be parsed. -/
structure DOk (tc : Bool) (d : JVal) : Prop where
  wf : d.WFt tc
  depth : d.depth < 4294967296
  size : d.text.length < 2 ^ 63

/-- Same, for elements. -/
structure EOk (tc : Bool) (d : JElems) : Prop where
  wf : d.WFt tc
  depth : d.depth < 4294967295
  size : d.text.length < 2 ^ 63

/-- Same, for members. -/
structure MOk (tc : Bool) (d : JMems) : Prop where
  wf : d.WFt tc
  depth : d.depth < 4294967295
  size : d.text.length < 2 ^ 63

variable {tc : Bool}

theorem DOk.elems {w : Bytes} {es : JElems} (h : DOk tc (.arr w es)) : EOk tc es := by
  obtain ⟨h1, h2, h3⟩ := h
  simp only [JVal.WFt] at h1
  simp only [JVal.depth] at h2
  refine ⟨h1.2, by omega, ?_⟩
  match es with
  | .nil => simp [JElems.text]
  | .cons .. =>
    simp only [JVal.text, JElems.text, List.length_cons, List.length_append, List.length_nil] at h3 ⊢
    omega

theorem DOk.mems {w : Bytes} {es : JMems} (h : DOk tc (.obj w es)) : MOk tc es := by
  obtain ⟨h1, h2, h3⟩ := h
  simp only [JVal.WFt] at h1
  simp only [JVal.depth] at h2
  refine ⟨h1.2, by omega, ?_⟩
  match es with
  | .nil => simp [JMems.text]
  | .cons .. =>
    simp only [JVal.text, JMems.text, List.length_cons, List.length_append, List.length_nil] at h3 ⊢
    omega

theorem EOk.cons {pre post : Bytes} {d : JVal} {tl : JElems} (h : EOk tc (.cons pre d post tl)) :
    DOk tc d ∧ EOk tc tl := by
  obtain ⟨h1, h2, h3⟩ := h
  simp only [JElems.WFt] at h1
  simp only [JElems.depth] at h2
  simp only [JElems.text, List.length_cons, List.length_append] at h3
  exact ⟨⟨h1.2.1, by omega, by omega⟩,
    ⟨h1.2.2.2, by omega, by omega⟩⟩

theorem MOk.cons {pre n pc qc post : Bytes} {d : JVal} {tl : JMems} (h : MOk tc (.cons pre n pc qc d post tl)) :
    DOk tc d ∧ MOk tc tl ∧ n.length < 2 ^ 63 := by
  obtain ⟨h1, h2, h3⟩ := h
  simp only [JMems.WFt] at h1
  simp only [JMems.depth] at h2
  simp only [JMems.text, List.length_cons, List.length_append] at h3
  exact ⟨⟨h1.2.2.2.2.1, by omega, by omega⟩,
    ⟨h1.2.2.2.2.2.2, by omega, by omega⟩, by omega⟩

theorem MOk.get {jm : JMems} (h : MOk tc jm) {n : Bytes} {d : JVal} (hg : jm.get? n = some d) : DOk tc d := by
  match jm with
  | .nil => simp [JMems.get?, JMems.toList] at hg
  | .cons pre m pc qc v post tl =>
    rw [JMems_get?_cons] at hg
    split at hg
    · obtain rfl : v = d := by simpa using hg
      exact h.cons.1
    · exact MOk.get h.cons.2.1 hg

theorem afterValue_nil : AfterValue [] := ⟨[], [], by simp [IsWs], rfl, Or.inl rfl⟩

/-- The value is read with both kinds of bounds. -/
def Sem (t : TCfg) (Δ : Env) (f : Nat) (ty : Ty) (d : JVal) (v : Val) : Prop :=
  SemU t.cfg.checked (parseU t Δ f ty) d v ∧ SemK (parseK t Δ f ty) d v

theorem parseStrRange_text (cfg : Cfg) (ah : Bool) (r : Range) (a : Bytes) :
    parseStrRange cfg ah r a = parseStrRange cfg ah { text := r.text, counter := r.counter } a := rfl

/-- A container read from its range. -/
theorem stored_text {d : JVal} {r : Range} {a : Bytes} (h : Stored d r a) (hs : ∀ b, d ≠ .str b) : r.text = d.text := by
  obtain ⟨h1, h2, -⟩ := h
  rw [h2]
  match d with
  | .null => exact absurd rfl h1
  | .str b => exact absurd rfl (hs b)
  | .tru | .fls | .num _ | .arr .. | .obj .. => rfl

theorem inside_stored (t : TCfg) {d : JVal} {r : Range} {a : Bytes} (h : Stored d r a) (hs : ∀ b, d ≠ .str b) (hn : ∀ b, d ≠ .num b) :
    t.inside r = t := by
  refine t.inside_unquoted (h.2.2.2.2.1.trans ?_)
  match d with
  | .str b => exact absurd rfl (hs b)
  | .num b => exact absurd rfl (hn b)
  | .null | .tru | .fls => rfl
  | .arr w es => cases es <;> simp [JVal.text, headIs]
  | .obj w ms => cases ms <;> simp [JVal.text, headIs]

/-- The alternative for a stored range. -/
theorem altOfRange_reads {Δ : Env} (henv : EnvOk Δ) {nm : List Bytes → Bytes → Prop} {ea tc : Bool} (cfg : Cfg) {i k : Nat}
    {alts : List Ty} {ty : Ty} {d : JVal} {v : Val} (hi : Δ i = .var alts) (hty : alts[k]? = some ty) (h : Reads Δ nm ea ty d v)
    (hd : d.WFt tc) {r : Range} {a : Bytes} (hst : Stored d r a) : altOfRange cfg Δ alts r = .ok (k, ty) := by
  have hq := hst.2.2.2.2.1
  unfold altOfRange
  by_cases hs : d.jkind = .string
  · rw [hq, (headIs_quote hd hst.1).2 hs, if_pos rfl]
    simp only [altOfBase, findAlt_reads henv hi hty h (b := .string) (by rw [hs]; rfl)]
  · have : headIs (· == chQuote) d.text = false := by
      rw [Bool.eq_false_iff]
      exact fun hc => hs ((headIs_quote hd hst.1).1 hc)
    rw [hq, this, if_neg (by simp), stored_text hst (by rintro b rfl; exact hs rfl)]
    obtain ⟨c, cs, h1, h2⟩ := altOfChar_reads henv cfg hi hty h hd hst.1
    rw [h1]
    exact h2

/-- An object or array is not read as a literal. -/
theorem reads_bareLit {Δ : Env} {nm : List Bytes → Bytes → Prop} {ea : Bool} {d : JVal} (hd : ∀ b, d ≠ .str b) (hl : ¬ d.IsLit) :
    (v : Val) → {ty : Ty} → Reads Δ nm ea ty d v → v.bareLit = false
  | .bool _, _, _ | .int _, _, _ | .str _, _, _ | .txt _, _, _ | .date _, _, _ | .real _, _, _ | .none, _, _ | .arr _, _, _ | .map _, _, _
  | .cls _, _, _ => rfl
  | .lit _, _, h => by
    cases h with
    | txt h =>
      cases h with
      | quoted => exact absurd rfl (hd _)
      | bare h => exact absurd h hl
  | .some v, _, h => by
    cases h with
    | some _ h => exact reads_bareLit hd hl v h
    | txt h => cases h
  | .alt _ v, _, h => by
    cases h with
    | var _ _ _ h => exact reads_bareLit hd hl v h
    | ivar _ _ _ _ _ _ h => exact reads_bareLit hd hl v h
    | txt h => cases h

/-- A container read from its range and, without checks, what follows it. -/
theorem SemU.seen {cfg : Cfg} {p : Bytes → Res (Val × Bytes)} {d : JVal} {v : Val} (h : SemU cfg.checked p d v)
    (hc : d.ends v = true) (hs : ∀ b, d ≠ .str b) {r : Range} {a : Bytes} (hst : Stored d r a) :
    ∃ r', p (r.seen cfg a) = .ok (v, r') := by
  unfold Range.seen
  rw [stored_text hst hs]
  cases hck : cfg.checked with
  | true =>
    obtain ⟨r', hr', -⟩ := h [] (by simp [hc]) (by simp [hck])
    rw [List.append_nil] at hr'
    exact ⟨r', by simpa using hr'⟩
  | false =>
    obtain ⟨r', hr', -⟩ := h a (by simp [hc]) (fun _ => hst.2.2.2.2.2.2.1)
    exact ⟨r', by simpa using hr'⟩

theorem text_ne_empty {d : JVal} (hd : d.WFt tc) (k : Bytes) : (d.text ++ k).isEmpty = false := by
  obtain ⟨c, cs, h, -⟩ := text_head d hd
  rw [h]; rfl

variable {t : TCfg} {Δ : Env}

/-- Only a nullable type reads `null`, as empty. -/
theorem reads_null {nm : List Bytes → Bytes → Prop} {ea : Bool} {ty : Ty} {d : JVal} {v : Val} (h : Reads Δ nm ea ty d v) (hd : d = .null) :
    ty.isOpt = true ∧ v = .none := by
  cases h <;> first | exact ⟨rfl, rfl⟩ | (exfalso; contradiction) | (exact absurd hd (readsTxt_ne_null (by assumption)))

/-- What is asked of a type and a value to be read without checks. -/
def Fast (t : TCfg) (ty : Ty) (v : Val) : Prop := t.cfg.checked = true ∨ (ty.wide = true ∧ v.noNone = true)

theorem noNones_scalar {nm : List Bytes → Bytes → Prop} {ea : Bool} {m : Member} {jm : JMems} {x : Val}
    (h : ReadsMembers Δ nm ea [m] jm [x]) (hs : m.ty.scalar = true) : x.noNone = true := by
  cases h with
  | found _ h1 _ =>
    cases hty : m.ty with
    | bool => rw [hty] at h1; cases h1 <;> rfl
    | int => rw [hty] at h1; cases h1; rfl
    | str => rw [hty] at h1; cases h1; rfl
    | txt | opt | arr | map | ref => rw [hty] at hs; simp [Ty.scalar] at hs
  | absent _ ho _ =>
    cases hty : m.ty <;> rw [hty] at hs ho <;> simp [Ty.scalar, Ty.isOpt] at hs ho

set_option linter.unusedSectionVars false

section
variable (hu : t.cfg.checked = true ∨ ∀ i, (Δ i).wide = true) (henv : EnvOk Δ) {nm : List Bytes → Bytes → Prop} {ea : Bool}
  (hnm : ∀ N n, nm N n → NameOk t N n ∧ (PlainName n ∨ t.escNames = true)) (hea : ea = t.exactAll)
include hu henv hnm hea

mutual
theorem reads_semM : ∀ {ty d v}, Reads Δ nm ea ty d v → DOk tc d → Fast t ty v → ∃ f0, ∀ f, f0 ≤ f → Sem t Δ f ty d v
  | _, _, _, .tru, hd, hv => by
    refine ⟨1, fun f hf => ?_⟩
    obtain ⟨f, rfl⟩ : ∃ g, f = g + 1 := ⟨f - 1, by omega⟩
    refine ⟨fun k hk hns => ?_, fun r a hr => ?_⟩
    · obtain ⟨r, hr, ht⟩ := parseBool_sem (cfg := t.cfg) true (hk rfl).1 hns
      simp only [if_true] at hr
      exact ⟨r, by simp [parseU, hr], ht⟩
    · have := stored_text hr (by simp)
      have hcn := hr.2.2.2.2.2.1 (by simp)
      cases hck : t.cfg.checked <;> simp [parseK, t.inside_unquoted (hr.2.2.2.2.1.trans rfl), parseBoolKnown, hck, this, hcn, JVal.text, rangeCounter]
  | _, _, _, .fls, hd, hv => by
    refine ⟨1, fun f hf => ?_⟩
    obtain ⟨f, rfl⟩ : ∃ g, f = g + 1 := ⟨f - 1, by omega⟩
    refine ⟨fun k hk hns => ?_, fun r a hr => ?_⟩
    · obtain ⟨r, hr, ht⟩ := parseBool_sem (cfg := t.cfg) false (hk rfl).1 hns
      simp only [Bool.false_eq_true, if_false] at hr
      exact ⟨r, by simp [parseU, hr], ht⟩
    · have := stored_text hr (by simp)
      have hcn := hr.2.2.2.2.2.1 (by simp)
      cases hck : t.cfg.checked <;> simp [parseK, t.inside_unquoted (hr.2.2.2.2.1.trans rfl), parseBoolKnown, hck, this, hcn, JVal.text, rangeCounter]
  | _, _, _, @Reads.int _ _ _ ity rc txt i hva hr hn, hd, _ => by
    refine ⟨1, fun f hf => ?_⟩
    obtain ⟨f, rfl⟩ : ∃ g, f = g + 1 := ⟨f - 1, by omega⟩
    refine ⟨fun k hk hns => ?_, fun r a hst => ?_⟩
    · have := parseInt_numeral t.cfg ity hva i hr rc txt hn k (hk rfl).1 (fun h => ((hns h).room (hk rfl).1) h)
      refine ⟨_, by simp only [parseU, JVal.text, this, Res.ok_bind]; rfl, ?_⟩
      split
      · exact dropWs_trimEq k
      · exact TrimEq.refl k
    · have := stored_text hst (by simp)
      simp [parseK, this, JVal.text, parseIntKnown_numeral _ ity hva i hr rc txt hn]
  | _, _, _, @Reads.str _ _ _ ah b s hue, hd, hv => by
    refine ⟨1, fun f hf => ?_⟩
    obtain ⟨f, rfl⟩ : ∃ g, f = g + 1 := ⟨f - 1, by omega⟩
    have hl : b.length < 2 ^ 63 := by
      have := hd.size
      simp only [JVal.text, List.length_cons, List.length_append, List.length_nil] at this
      omega
    have hah : ah = true ∨ t.cfg.checked = true ∨ b ≠ [] := by
      rcases hv with h | h
      · exact Or.inr (Or.inl h)
      · exact Or.inl h.1
    refine ⟨fun k hk hns => ?_, fun r a hst => ?_⟩
    · have := parseStr_body t.cfg ah hue hl k hah
      refine ⟨k, ?_, TrimEq.refl k⟩
      have ht : (JVal.str b).text ++ k = chQuote :: (b ++ chQuote :: k) := by simp [JVal.text]
      simp only [parseU, ht, this, Res.ok_bind]
    · obtain ⟨-, h2, -, h4, -⟩ := hst
      obtain ⟨h5, c, rfl⟩ := h4 b rfl
      simp only [rangeText, Bool.false_eq_true, if_false] at h2
      have := parseStrRange_body t.cfg ah hue hl c hah
      simp only [parseK]
      rw [parseStrRange_text, h2, h5, this]
      rfl
  | _, _, _, .txt h, hd, hv => by
    refine ⟨1, fun f hf => ?_⟩
    obtain ⟨f, rfl⟩ : ∃ g, f = g + 1 := ⟨f - 1, by omega⟩
    refine ⟨fun k hk hns => ?_, fun r a hst => ?_⟩
    · simpa only [parseU] using parseTxt_sem h hd.wf hd.depth hd.size k hk hns
    · simpa only [parseK] using parseTxtKnown_sem h (fun _ => hd.wf) hst.2.1 hst.2.2.2.2.1 hst.2.2.2.2.2.2.2.1
        (fun x hx => numEnd_after (hst.2.2.2.2.2.2.2.2 x hx)) hst.2.2.2.2.2.2.1.ne (hv.imp id fun h => ⟨h.2, by
          rintro (rfl | rfl)
          · rw [hst.2.2.2.2.2.1 (by simp)]
            decide
          · rw [(hst.2.2.2.1 _ rfl).1]
            decide⟩)
  | _, _, _, .null, hd, hv => by
    refine ⟨1, fun f hf => ?_⟩
    obtain ⟨f, rfl⟩ : ∃ g, f = g + 1 := ⟨f - 1, by omega⟩
    refine ⟨fun k hk hns => ?_, fun r a hst => absurd rfl hst.1⟩
    have hck : t.cfg.checked = true := by
      rcases hv with h | h
      · exact h
      · simp [Val.noNone] at h
    obtain ⟨r, hr, ht⟩ := eatNull_null hck (hk rfl).1
    exact ⟨r, by simp only [parseU, hr, Res.ok_bind], ht⟩
  | _, d, _, .some hne h, hd, hv => by
    obtain ⟨f0, hf0⟩ := reads_semM h hd (hv.imp id fun h => by simpa [Ty.wide, Val.noNone] using h)
    refine ⟨f0 + 1, fun f hf => ?_⟩
    obtain ⟨f, rfl⟩ : ∃ g, f = g + 1 := ⟨f - 1, by omega⟩
    obtain ⟨h1, h2⟩ := hf0 f (by omega)
    refine ⟨fun k hk hns => ?_, fun r a hst => ?_⟩
    · obtain ⟨r, hr, ht⟩ := h1 k hk hns
      exact ⟨r, by simp only [parseU, eatNull_value hd.wf hne, Res.ok_bind, hr], ht⟩
    · simp only [parseK, hst.2.2.1, Bool.false_eq_true, if_false, h2 r a hst, Res.ok_bind]
  | _, _, _, @Reads.arr _ _ _ ty w es vs he h, hd, hv => by
    obtain ⟨f0, hf0⟩ := elems_semM h hd.elems (hv.imp id fun h => by simpa [Ty.wide, Val.noNone] using h)
    refine ⟨f0 + 1, fun f hf => ?_⟩
    obtain ⟨f, rfl⟩ : ∃ g, f = g + 1 := ⟨f - 1, by omega⟩
    have hs := parseArr_sem (cfg := t.cfg) hd.wf he (hf0 f (by omega))
    refine ⟨fun k hk hns => ?_, fun r a hst => ?_⟩
    · simpa only [parseU] using hs k hk hns
    · obtain ⟨r', hr'⟩ := hs.seen rfl (by simp) hst
      simp only [parseK, inside_stored t hst (by simp) (by simp), hr', Res.ok_bind]
  | _, _, _, @Reads.map _ _ _ ty w ms kvs he h, hd, hv => by
    obtain ⟨f0, hf0⟩ := pairs_semM h hd.mems (hv.imp id fun h => by simpa [Ty.wide, Val.noNone] using h)
    refine ⟨f0 + 1, fun f hf => ?_⟩
    obtain ⟨f, rfl⟩ : ∃ g, f = g + 1 := ⟨f - 1, by omega⟩
    have hs := parseMap_sem (cfg := t.cfg) hd.wf he (hf0 f (by omega))
    refine ⟨fun k hk hns => ?_, fun r a hst => ?_⟩
    · simpa only [parseU] using hs k hk hns
    · obtain ⟨r', hr'⟩ := hs.seen rfl (by simp) hst
      simp only [parseK, inside_stored t hst (by simp) (by simp), hr', Res.ok_bind]
  | _, _, _, @Reads.obj _ _ _ i ms ex w jm vs hi hpl honce hex h, hd, hv => by
    obtain ⟨f0, hf0⟩ := members_semM h hd.mems (by
      rcases hv with h | h
      · exact Or.inl h
      · rcases hu with h' | h'
        · exact Or.inl h'
        · have := h' i
          simp only [hi, Shape.wide] at this
          exact Or.inr ⟨this, by simpa [Val.noNone] using h.2⟩)
    refine ⟨f0 + 1, fun f hf => ?_⟩
    obtain ⟨f, rfl⟩ : ∃ g, f = g + 1 := ⟨f - 1, by omega⟩
    have hs := parseObj_sem (t := t) (exact := ex || t.exactAll) (henv.nodup i ms ex hi) hd.wf hd.mems.depth hd.size
      (fun n hn => hnm _ n (hpl n hn))
      honce (hea ▸ hex) (hf0 f (by omega))
    refine ⟨fun k hk hns => ?_, fun r a hst => ?_⟩
    · obtain ⟨r, hr, ht⟩ := hs k hk hns
      refine ⟨trimChecked r, ?_, trimChecked_te ht⟩
      simp only [parseU, hi, assertWeak_tt, text_ne_empty hd.wf, Bool.not_false, Res.ok_bind, hr]
    · obtain ⟨r', hr'⟩ := hs.seen rfl (by simp) hst
      have hne := text_ne_empty hd.wf []
      rw [List.append_nil] at hne
      simp only [parseK, inside_stored t hst (by simp) (by simp), hi, stored_text hst (by simp), assertWeak_tt, hne, Bool.not_false, Res.ok_bind, hr']
  | _, _, _, @Reads.tup _ _ _ i ts ex w es vs hi h, hd, hv => by
    obtain ⟨rest, hre, f0, hf0⟩ := tuple_semM h hd.elems (by
      rcases hv with h | h
      · exact Or.inl h
      · rcases hu with h' | h'
        · exact Or.inl h'
        · have := h' i
          simp only [hi, Shape.wide] at this
          exact Or.inr ⟨this, by simpa [Val.noNone] using h.2⟩)
    refine ⟨f0 + 1, fun f hf => ?_⟩
    obtain ⟨f, rfl⟩ : ∃ g, f = g + 1 := ⟨f - 1, by omega⟩
    rw [hea] at hre
    have hs := parseTup_sem (cfg := t.cfg) (exact := ex || t.exactAll) hd.wf hd.elems.depth (hf0 f (by omega)) hre
    refine ⟨fun k hk hns => ?_, fun r a hst => ?_⟩
    · obtain ⟨r, hr, ht⟩ := hs k hk hns
      exact ⟨r, by simp only [parseU, hi, hr], ht⟩
    · obtain ⟨r', hr'⟩ := hs.seen rfl (by simp) hst
      simp only [parseK, inside_stored t hst (by simp) (by simp), hi, Res.ok_bind, hr']
  | _, _, _, @Reads.ord _ _ _ i ms ex w es vs hi hms hex h, hd, hv => by
    obtain ⟨f0, hf0⟩ := ordered_semM h hd.elems (by
      rcases hv with h | h
      · exact Or.inl h
      · rcases hu with h' | h'
        · exact Or.inl h'
        · have := h' i
          simp only [hi, Shape.wide] at this
          exact Or.inr ⟨this, by simpa [Val.noNone] using h.2⟩)
    refine ⟨f0 + 1, fun f hf => ?_⟩
    obtain ⟨f, rfl⟩ : ∃ g, f = g + 1 := ⟨f - 1, by omega⟩
    rw [hea] at hf0 hex
    have hs := parseOrd_sem (cfg := t.cfg) (exact := ex || t.exactAll) hd.wf hd.elems.depth hms hex (hf0 f (by omega))
    refine ⟨fun k hk hns => ?_, fun r a hst => ?_⟩
    · obtain ⟨r, hr, ht⟩ := hs k hk hns
      refine ⟨trimChecked r, ?_, trimChecked_te ht⟩
      simp only [parseU, hi, assertWeak_tt, text_ne_empty hd.wf, Bool.not_false, Res.ok_bind, hr]
    · obtain ⟨r', hr'⟩ := hs.seen rfl (by simp) hst
      have hne := text_ne_empty hd.wf []
      rw [List.append_nil] at hne
      simp only [parseK, inside_stored t hst (by simp) (by simp), hi, stored_text hst (by simp), assertWeak_tt, hne, Bool.not_false, Res.ok_bind, hr']
  | _, d, _, @Reads.var _ _ _ i alts n ty _ v hi hty hne h, hd, hv => by
    obtain ⟨f0, hf0⟩ := reads_semM h hd (by
      rcases hv with h | h
      · exact Or.inl h
      · rcases hu with h' | h'
        · exact Or.inl h'
        · have := h' i
          simp only [hi, Shape.wide, List.all_eq_true] at this
          exact Or.inr ⟨this ty (List.mem_of_getElem? hty), by simpa [Val.noNone] using h.2⟩)
    refine ⟨f0 + 1, fun f hf => ?_⟩
    obtain ⟨f, rfl⟩ : ∃ g, f = g + 1 := ⟨f - 1, by omega⟩
    obtain ⟨h1, h2⟩ := hf0 f (by omega)
    refine ⟨fun k hk hns => ?_, fun r a hst => ?_⟩
    · obtain ⟨r, hr, ht⟩ := h1 k hk hns
      obtain ⟨c, cs, hc, halt⟩ := altOfChar_reads henv t.cfg hi hty h hd.wf hne
      have hdr : derefEnd t.cfg (d.text ++ k) = .ok c := by rw [hc]; rfl
      exact ⟨r, by simp only [parseU, hi, hdr, Res.ok_bind, halt, hr], ht⟩
    · simp only [parseK, hi, altOfRange_reads henv t.cfg hi hty h hd.wf hst, Res.ok_bind, h2 r a hst]
  | _, _, _, @Reads.ivar _ _ _ i tag sw alts ty w jm x v hi hpl honce hex hx hty h, hd, hv => by
    obtain ⟨f0, hf0⟩ := members_semM hx hd.mems (by
      rcases hu with h' | h'
      · exact Or.inl h'
      · have := h' i
        simp only [hi, Shape.wide, Bool.and_eq_true] at this
        exact Or.inr ⟨by simpa using this.1.1, by simpa [Val.noNones] using noNones_scalar hx this.1.2⟩)
    obtain ⟨f1, hf1⟩ := reads_semM h hd (by
      rcases hv with h | h
      · exact Or.inl h
      · rcases hu with h' | h'
        · exact Or.inl h'
        · have := h' i
          simp only [hi, Shape.wide, Bool.and_eq_true, List.all_eq_true] at this
          exact Or.inr ⟨this.2 ty (List.mem_of_getElem? hty), by simpa [Val.noNone] using h.2⟩)
    refine ⟨max f0 f1 + 1, fun f hf => ?_⟩
    obtain ⟨f, rfl⟩ : ∃ g, f = g + 1 := ⟨f - 1, by omega⟩
    obtain ⟨h1, -⟩ := hf1 f (by omega)
    have hs := parseObj_sem (t := t) (exact := t.exactAll) (ms := [tag]) (by simp) hd.wf hd.mems.depth hd.size
      (fun n hn => hnm _ n (hpl n hn)) (by simpa using honce)
      (fun he n hn => ⟨tag, by simp, (hex (hea.trans he) n hn).symm⟩) (hf0 f (by omega))
    have halt : altOfTag t.cfg sw alts (.cls [x]) = .ok (sw x, ty) := by simp only [altOfTag, hty]
    have hen := reads_bareLit (by simp) (by simp [JVal.IsLit]) _ h
    refine ⟨fun k hk hns => ?_, fun r a hst => ?_⟩
    · obtain ⟨r', hr', -⟩ := hs k (by simp [JVal.ends, JVal.closed, Val.bareLit]) hns
      obtain ⟨r, hr, ht⟩ := h1 k (by simp [JVal.ends, JVal.closed, hen]) hns
      exact ⟨r, by simp only [parseU, hi, assertWeak_tt, text_ne_empty hd.wf, Bool.not_false,
        Res.ok_bind, hr', halt, hr], ht⟩
    · obtain ⟨r', hr'⟩ := hs.seen rfl (by simp) hst
      obtain ⟨r, hr⟩ := h1.seen (by simp [JVal.ends, JVal.closed, hen]) (by simp) hst
      have hne := text_ne_empty hd.wf []
      rw [List.append_nil] at hne
      simp only [parseK, inside_stored t hst (by simp) (by simp), hi, stored_text hst (by simp), assertWeak_tt, hne, Bool.not_false,
        Res.ok_bind, hr', halt, hr]
theorem elems_semM : ∀ {ty es vs}, ReadsElems Δ nm ea ty es vs → EOk tc es → (t.cfg.checked = true ∨ (ty.wide = true ∧ Val.noNones vs = true)) →
    ∃ f0, ∀ f, f0 ≤ f → ElemsSem t.cfg.checked (parseU t Δ f ty) es vs
  | _, _, _, .nil, _, _ => ⟨0, fun _ _ => by simp [ElemsSem]⟩
  | _, _, _, .cons h1 h2, hd, hv => by
    obtain ⟨a, ha⟩ := reads_semM h1 hd.cons.1 (hv.imp id fun h => by simp only [Val.noNones, Bool.and_eq_true] at h; exact ⟨h.1, h.2.1⟩)
    obtain ⟨b, hb⟩ := elems_semM h2 hd.cons.2 (hv.imp id fun h => by simp only [Val.noNones, Bool.and_eq_true] at h; exact ⟨h.1, h.2.2⟩)
    exact ⟨max a b, fun f hf => ⟨(ha f (by omega)).1, hb f (by omega)⟩⟩
theorem pairs_semM : ∀ {ty ms kvs}, ReadsPairs Δ nm ea ty ms kvs → MOk tc ms → (t.cfg.checked = true ∨ (ty.wide = true ∧ Val.noNonek kvs = true)) →
    ∃ f0, ∀ f, f0 ≤ f → PairsSem t.cfg.checked (parseU t Δ f ty) ms kvs
  | _, _, _, .nil, _, _ => ⟨0, fun _ _ => by simp [PairsSem]⟩
  | _, _, _, .cons hu h1 h2, hd, hv => by
    obtain ⟨a, ha⟩ := reads_semM h1 hd.cons.1 (hv.imp id fun h => by simp only [Val.noNonek, Bool.and_eq_true] at h; exact ⟨h.1, h.2.1⟩)
    obtain ⟨b, hb⟩ := pairs_semM h2 hd.cons.2.1 (hv.imp id fun h => by simp only [Val.noNonek, Bool.and_eq_true] at h; exact ⟨h.1, h.2.2⟩)
    exact ⟨max a b, fun f hf => ⟨hu, hd.cons.2.2, (ha f (by omega)).1, hb f (by omega)⟩⟩
theorem members_semM : ∀ {ms jm vs}, ReadsMembers Δ nm ea ms jm vs → MOk tc jm → (t.cfg.checked = true ∨ ((ms.all fun m => m.ty.wide) = true ∧ Val.noNones vs = true)) →
    ∃ f0, ∀ f, f0 ≤ f → MemSem t.cfg.checked (parseU t Δ f) (parseK t Δ f) jm ms vs
  | _, _, _, .nil, _, _ => ⟨0, fun _ _ => by simp [MemSem]⟩
  | _, _, _, .found hg h1 h2, hd, hv => by
    obtain ⟨a, ha⟩ := reads_semM h1 (hd.get hg) (hv.imp id fun h => by simp only [List.all_cons, Val.noNones, Bool.and_eq_true] at h; exact ⟨h.1.1, h.2.1⟩)
    obtain ⟨b, hb⟩ := members_semM h2 hd (hv.imp id fun h => by simp only [List.all_cons, Val.noNones, Bool.and_eq_true] at h; exact ⟨h.1.2, h.2.2⟩)
    refine ⟨max a b, fun f hf => ⟨Or.inl ⟨_, hg, (ha f (by omega)).1, (ha f (by omega)).2, ?_⟩, hb f (by omega)⟩⟩
    rintro rfl
    obtain ⟨ho, rfl⟩ := reads_null h1 rfl
    rcases hv with h | h
    · exact ⟨h, ho, rfl⟩
    · simp [Val.noNones, Val.noNone] at h
  | _, _, _, .absent hg ho h2, hd, hv => by
    have hck : t.cfg.checked = true := by
      rcases hv with h | h
      · exact h
      · simp [Val.noNones, Val.noNone] at h
    obtain ⟨b, hb⟩ := members_semM h2 hd (Or.inl hck)
    exact ⟨b, fun f hf => ⟨Or.inr ⟨hg, hck, ho, rfl⟩, hb f hf⟩⟩
theorem tuple_semM : ∀ {ex ts es vs}, ReadsTuple Δ nm ea ex ts es vs → EOk tc es → (t.cfg.checked = true ∨ (ts.all Ty.wide = true ∧ Val.noNones vs = true)) →
    ∃ rest, TupRest ex rest ∧ ∃ f0, ∀ f, f0 ≤ f → TupSem t.cfg.checked (parseU t Δ f) rest ts es vs
  | _, _, es, _, .nil hex hna, _, _ => ⟨es, ⟨hex, hna⟩, 0, fun _ _ => by simp [TupSem]⟩
  | _, _, _, _, .cons h1 h2, hd, hv => by
    obtain ⟨a, ha⟩ := reads_semM h1 hd.cons.1 (hv.imp id fun h => by simp only [List.all_cons, Val.noNones, Bool.and_eq_true] at h; exact ⟨h.1.1, h.2.1⟩)
    obtain ⟨rest, hre, b, hb⟩ := tuple_semM h2 hd.cons.2 (hv.imp id fun h => by simp only [List.all_cons, Val.noNones, Bool.and_eq_true] at h; exact ⟨h.1.2, h.2.2⟩)
    exact ⟨rest, hre, max a b, fun f hf => ⟨(ha f (by omega)).1, hb f (by omega)⟩⟩
theorem ordered_semM : ∀ {ex idx ms es vs}, ReadsOrdered Δ nm ea ex idx ms es vs → EOk tc es → (t.cfg.checked = true ∨ ((ms.all fun m => m.2.wide) = true ∧ Val.noNones vs = true)) →
    ∃ f0, ∀ f, f0 ≤ f → OrdSem t.cfg.checked (parseU t Δ f) ex idx ms es vs
  | _, _, _, _, _, .nil hex, _, _ => ⟨0, fun _ _ => .nil hex⟩
  | _, _, _, _, _, .skip hlt h2, hd, hv => by
    obtain ⟨b, hb⟩ := ordered_semM h2 hd.cons.2 hv
    exact ⟨b, fun f hf => .skip hlt (hb f hf)⟩
  | _, _, _, _, _, .read hw h1 h2, hd, hv => by
    obtain ⟨a, ha⟩ := reads_semM h1 hd.cons.1 (hv.imp id fun h => by simp only [List.all_cons, Val.noNones, Bool.and_eq_true] at h; exact ⟨h.1.1, h.2.1⟩)
    obtain ⟨b, hb⟩ := ordered_semM h2 hd.cons.2 (hv.imp id fun h => by simp only [List.all_cons, Val.noNones, Bool.and_eq_true] at h; exact ⟨h.1.2, h.2.2⟩)
    exact ⟨max a b, fun f hf => .read hw (ha f (by omega)).1 (hb f (by omega))⟩
  | _, _, _, _, _, .gone hw ho h2, hd, hv => by
    have hck : t.cfg.checked = true := by
      rcases hv with h | h
      · exact h
      · simp [Val.noNones, Val.noNone] at h
    obtain ⟨b, hb⟩ := ordered_semM h2 hd (Or.inl hck)
    exact ⟨b, fun f hf => .gone hck hw ho (hb f hf)⟩
end

end

section
variable (hck : t.cfg.checked = true) (henv : EnvOk Δ) {nm : List Bytes → Bytes → Prop} {ea : Bool}
  (hnm : ∀ N n, nm N n → NameOk t N n ∧ (PlainName n ∨ t.escNames = true)) (hea : ea = t.exactAll)
include hck henv hnm hea

theorem reads_sem {ty d v} (h : Reads Δ nm ea ty d v) (hd : DOk tc d) : ∃ f0, ∀ f, f0 ≤ f → Sem t Δ f ty d v :=
  reads_semM (Or.inl hck) henv hnm hea h hd (Or.inl hck)

theorem members_sem {ms jm vs} (h : ReadsMembers Δ nm ea ms jm vs) (hd : MOk tc jm) :
    ∃ f0, ∀ f, f0 ≤ f → MemSem t.cfg.checked (parseU t Δ f) (parseK t Δ f) jm ms vs :=
  members_semM (Or.inl hck) henv hnm hea h hd (Or.inl hck)

theorem tuple_sem {ex ts es vs} (h : ReadsTuple Δ nm ea ex ts es vs) (hd : EOk tc es) :
    ∃ rest, TupRest ex rest ∧ ∃ f0, ∀ f, f0 ≤ f → TupSem t.cfg.checked (parseU t Δ f) rest ts es vs :=
  tuple_semM (Or.inl hck) henv hnm hea h hd (Or.inl hck)

theorem ordered_sem {ex idx ms es vs} (h : ReadsOrdered Δ nm ea ex idx ms es vs) (hd : EOk tc es) :
    ∃ f0, ∀ f, f0 ≤ f → OrdSem t.cfg.checked (parseU t Δ f) ex idx ms es vs :=
  ordered_semM (Or.inl hck) henv hnm hea h hd (Or.inl hck)

end

end Verif
