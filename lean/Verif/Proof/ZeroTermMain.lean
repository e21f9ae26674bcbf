import Verif.Proof.ZeroTermClass
import Verif.Proof.ZeroTermText
import Verif.Proof.TypedTop

/-!
# Zero terminated documents: the parser computes the meaning of the document
-/

namespace Verif

open Spec

variable {tc : Bool}

/-! ## Literals -/

theorem parseBoolZ_sem (b : Bool) {k : Nat} {q : Bytes} (hk : k ≤ q.length) (hq : AfterValue q) :
    ∃ r, parseBoolZ k ((if b then JVal.tru else JVal.fls).text ++ q) = .ok (b, r) ∧ TrimEq r q := by
  have hd := dropWs_trimEq q
  have he := endOfItemZ_of (k := k) (endOfItem_after hq).2
  refine ⟨dropWs q, ?_, hd⟩
  unfold parseBoolZ eatBoolZ
  rw [beforeZ_append _ _ hk]
  cases b
  · simp [JVal.text, List.isPrefixOf, trimChecked_after hq, he]
  · simp [JVal.text, List.isPrefixOf, trimChecked_after hq, he]

theorem eatNullZ_null {k : Nat} {q : Bytes} (hk : k ≤ q.length) (hq : AfterValue q) :
    ∃ r, eatNullZ k (JVal.null.text ++ q) = .ok (some r) ∧ TrimEq r q := by
  refine ⟨dropWs q, ?_, dropWs_trimEq q⟩
  have he := endOfItemZ_of (k := k) (endOfItem_after hq).1
  have hm : moreZ k (JVal.null.text ++ q) = true := moreZ_append hk (by simp [JVal.text])
  unfold eatNullZ
  rw [beforeZ_append _ _ hk, hm]
  simp [JVal.text, List.isPrefixOf, trimChecked_after hq, he, frontZ, isTokenAfterValue]

theorem eatNullZ_value {d : JVal} (hd : d.WFt tc) (hne : d ≠ .null) {k : Nat} {q : Bytes} (hk : k ≤ q.length) :
    eatNullZ k (d.text ++ q) = .ok none := by
  obtain ⟨c, cs, h, -, h2, h3, -⟩ := text_head d hd
  have hc := h3 hne
  have hx : (0x6E == c) = false := by simpa using fun h => hc h.symm
  have hm : moreZ k (d.text ++ q) = true := moreZ_append hk (by rw [h]; simp)
  unfold eatNullZ
  rw [beforeZ_append _ _ hk, hm, h]
  simp [frontZ, h2, List.isPrefixOf, hx]

/-- The value is read with both kinds of bounds. -/
def SemZ (t : TCfg) (Δ : Env) (f : Nat) (ty : Ty) (d : JVal) (v : Val) : Prop :=
  SemUZ (parseUZ t Δ f ty) d v ∧ SemKZ (parseKZ t Δ f ty) d v

/-- A value that is not a string, read from its range. -/
theorem storedZ_text {d : JVal} {r : ZRange} (h : StoredZ d r) (hs : ∀ b, d ≠ .str b) :
    ∃ aft, r.s = d.text ++ aft ∧ r.k = aft.length ∧ (d.closed = false → AfterValue aft) := by
  obtain ⟨h1, -, aft, h2, h3, h4, -⟩ := h
  refine ⟨aft, ?_, h3, h4⟩
  rw [h2]
  match d with
  | .null => exact absurd rfl h1
  | .str b => exact absurd rfl (hs b)
  | .tru | .fls | .num _ | .arr .. | .obj .. => rfl

/-- The alternative for a stored range. -/
theorem altOfRangeZ_reads {Δ : Env} (henv : EnvOk Δ) {nm : List Bytes → Bytes → Prop} {ea tc : Bool} (cfg : Cfg) {i k : Nat}
    {alts : List Ty} {ty : Ty} {d : JVal} {v : Val} (hi : Δ i = .var alts) (hty : alts[k]? = some ty) (h : Reads Δ nm ea ty d v)
    (hd : d.WFt tc) {r : ZRange} (hst : StoredZ d r) :
    altOfRangeZ cfg Δ alts r = .ok (k, ty) := by
  unfold altOfRangeZ
  obtain ⟨aft, h1, h2, h3⟩ : ∃ aft, ((∀ b, d ≠ .str b) → r.s = d.text ++ aft) ∧ True ∧ True := by
    obtain ⟨aft, h, -⟩ := hst.2.2
    by_cases hs : ∀ b, d ≠ .str b
    · obtain ⟨aft, h, -⟩ := storedZ_text hst hs
      exact ⟨aft, fun _ => h, trivial, trivial⟩
    · exact ⟨aft, fun h => absurd h hs, trivial, trivial⟩
  obtain ⟨hne, -, aft', -, -, -, -, hq, -⟩ := hst
  by_cases hs : d.jkind = .string
  · rw [hq, (headIs_quote hd hne).2 hs, if_pos rfl]
    simp only [altOfBase, findAlt_reads henv hi hty h (b := .string) (by rw [hs]; rfl)]
  · have : headIs (· == chQuote) d.text = false := by
      rw [Bool.eq_false_iff]
      exact fun hc => hs ((headIs_quote hd hne).1 hc)
    rw [hq, this, if_neg (by simp), h1 (by rintro b rfl; exact hs rfl)]
    obtain ⟨c, cs, h1, h2⟩ := altOfChar_reads henv cfg hi hty h hd hne
    rw [h1]
    exact h2

theorem moreZ_text {d : JVal} (hd : d.WFt tc) {k : Nat} {q : Bytes} (hk : k ≤ q.length) :
    moreZ k (d.text ++ q) = true := by
  obtain ⟨c, cs, h, -⟩ := text_head d hd
  exact moreZ_append hk (by rw [h]; simp)

variable {t : TCfg} {Δ : Env}

set_option linter.unusedSectionVars false

section
variable (hck : t.cfg.checked = true) (henv : EnvOk Δ) {nm : List Bytes → Bytes → Prop} {ea : Bool}
  (hnm : ∀ N n, nm N n → NameOk t N n ∧ (PlainName n ∨ t.escNames = true)) (hea : ea = t.exactAll)
include hck henv hnm hea

mutual
theorem reads_semZ : ∀ {ty d v}, Reads Δ nm ea ty d v → DOk tc d → ∃ f0, ∀ f, f0 ≤ f → SemZ t Δ f ty d v
  | _, _, _, .tru, hd => by
    refine ⟨1, fun f hf => ?_⟩
    obtain ⟨f, rfl⟩ : ∃ g, f = g + 1 := ⟨f - 1, by omega⟩
    refine ⟨fun k q hk hq => ?_, fun r hr => ?_⟩
    · obtain ⟨r, hr, ht⟩ := parseBoolZ_sem true hk (hq rfl).1
      simp only [if_true] at hr
      exact ⟨r, by simp [parseUZ, hr], ht⟩
    · obtain ⟨aft, h1, h2, -⟩ := storedZ_text hr (by simp)
      simp [parseKZ, parseBoolKnownZ, h1, JVal.text, frontZ]
  | _, _, _, .fls, hd => by
    refine ⟨1, fun f hf => ?_⟩
    obtain ⟨f, rfl⟩ : ∃ g, f = g + 1 := ⟨f - 1, by omega⟩
    refine ⟨fun k q hk hq => ?_, fun r hr => ?_⟩
    · obtain ⟨r, hr, ht⟩ := parseBoolZ_sem false hk (hq rfl).1
      simp only [Bool.false_eq_true, if_false] at hr
      exact ⟨r, by simp [parseUZ, hr], ht⟩
    · obtain ⟨aft, h1, h2, -⟩ := storedZ_text hr (by simp)
      simp [parseKZ, parseBoolKnownZ, h1, JVal.text, frontZ]
  | _, _, _, @Reads.int _ _ _ ity rc txt i hv hr hn, hd => by
    refine ⟨1, fun f hf => ?_⟩
    obtain ⟨f, rfl⟩ : ∃ g, f = g + 1 := ⟨f - 1, by omega⟩
    refine ⟨fun k q hk hq => ?_, fun r hst => ?_⟩
    · have := parseIntZ_numeral ity hv i hr rc txt hn q (hq rfl).1 hk
      refine ⟨_, by simp only [parseUZ, JVal.text, this, Res.ok_bind]; rfl, ?_⟩
      split
      · exact dropWs_trimEq q
      · exact TrimEq.refl q
    · obtain ⟨aft, h1, h2, h3⟩ := storedZ_text hst (by simp)
      simp [parseKZ, h1, h2, JVal.text, parseIntKnownZ_numeral ity hv i hr rc txt aft hn (noDig_after (h3 rfl))]
  | _, _, _, @Reads.str _ _ _ ah b s hu, hd => by
    refine ⟨1, fun f hf => ?_⟩
    obtain ⟨f, rfl⟩ : ∃ g, f = g + 1 := ⟨f - 1, by omega⟩
    have hl : b.length < 2 ^ 63 := by
      have := hd.size
      simp only [JVal.text, List.length_cons, List.length_append, List.length_nil] at this
      omega
    refine ⟨fun k q hk hq => ?_, fun r hst => ?_⟩
    · have := parseStrZ_body t.cfg hck ah hu hl hk
      refine ⟨q, ?_, TrimEq.refl q⟩
      have ht : (JVal.str b).text ++ q = chQuote :: (b ++ chQuote :: q) := by simp [JVal.text]
      simp only [parseUZ, ht, this, Res.ok_bind]
    · obtain ⟨-, hnl, aft, h2, h3, -, h4, -⟩ := hst
      obtain ⟨h5, c, rfl⟩ := h4 b rfl
      simp only [rangeText, Bool.false_eq_true, if_false] at h2
      have := parseStrRangeZ_body t.cfg hck ah hu hl c
      have hr : parseStrRangeZ t.cfg ah r
          = parseStrRangeZ t.cfg ah { s := b ++ chQuote :: c, k := c.length + 1, counter := firstEsc b } := by
        cases r
        simp only at h2 h3 h5 hnl
        subst h2 h3 h5 hnl
        rfl
      simp only [parseKZ]
      rw [hr, this]
      rfl
  | _, _, _, .txt h, hd => by
    refine ⟨1, fun f hf => ?_⟩
    obtain ⟨f, rfl⟩ : ∃ g, f = g + 1 := ⟨f - 1, by omega⟩
    refine ⟨fun k q hk hq => ?_, fun r hst => ?_⟩
    · simpa only [parseUZ] using parseTxtZ_sem h hd.wf hd.depth hd.size k q hk hq
    · simpa only [parseKZ] using parseTxtKnownZ_sem hck h hd.wf r hst
  | _, _, _, .null, hd => by
    refine ⟨1, fun f hf => ?_⟩
    obtain ⟨f, rfl⟩ : ∃ g, f = g + 1 := ⟨f - 1, by omega⟩
    refine ⟨fun k q hk hq => ?_, fun r hst => absurd rfl hst.1⟩
    obtain ⟨r, hr, ht⟩ := eatNullZ_null hk (hq rfl).1
    exact ⟨r, by simp only [parseUZ, hr, Res.ok_bind], ht⟩
  | _, d, _, .some hne h, hd => by
    obtain ⟨f0, hf0⟩ := reads_semZ h hd
    refine ⟨f0 + 1, fun f hf => ?_⟩
    obtain ⟨f, rfl⟩ : ∃ g, f = g + 1 := ⟨f - 1, by omega⟩
    obtain ⟨h1, h2⟩ := hf0 f (by omega)
    refine ⟨fun k q hk hq => ?_, fun r hst => ?_⟩
    · obtain ⟨r, hr, ht⟩ := h1 k q hk hq
      exact ⟨r, by simp only [parseUZ, eatNullZ_value hd.wf hne hk, Res.ok_bind, hr], ht⟩
    · simp only [parseKZ, hst.2.1, Bool.false_eq_true, if_false, h2 r hst, Res.ok_bind]
  | _, _, _, @Reads.arr _ _ _ ty w es vs he h, hd => by
    obtain ⟨f0, hf0⟩ := elems_semZ h hd.elems
    refine ⟨f0 + 1, fun f hf => ?_⟩
    obtain ⟨f, rfl⟩ : ∃ g, f = g + 1 := ⟨f - 1, by omega⟩
    have hs := parseArrZ_sem hd.wf he (hf0 f (by omega))
    refine ⟨fun k q hk hq => ?_, fun r hst => ?_⟩
    · simpa only [parseUZ] using hs k q hk hq
    · obtain ⟨aft, h1, h2, h3⟩ := storedZ_text hst (by simp)
      obtain ⟨r', hr', -⟩ := hs aft.length aft (Nat.le_refl _) (by simp [JVal.ends, JVal.closed, Val.bareLit])
      simp only [parseKZ, h1, h2, hr', Res.ok_bind]
  | _, _, _, @Reads.map _ _ _ ty w ms kvs he h, hd => by
    obtain ⟨f0, hf0⟩ := pairs_semZ h hd.mems
    refine ⟨f0 + 1, fun f hf => ?_⟩
    obtain ⟨f, rfl⟩ : ∃ g, f = g + 1 := ⟨f - 1, by omega⟩
    have hs := parseMapZ_sem hck hd.wf he (hf0 f (by omega))
    refine ⟨fun k q hk hq => ?_, fun r hst => ?_⟩
    · simpa only [parseUZ] using hs k q hk hq
    · obtain ⟨aft, h1, h2, h3⟩ := storedZ_text hst (by simp)
      obtain ⟨r', hr', -⟩ := hs aft.length aft (Nat.le_refl _) (by simp [JVal.ends, JVal.closed, Val.bareLit])
      simp only [parseKZ, h1, h2, hr', Res.ok_bind]
  | _, _, _, @Reads.obj _ _ _ i ms ex w jm vs hi hpl honce hex h, hd => by
    obtain ⟨f0, hf0⟩ := members_semZ h hd.mems
    refine ⟨f0 + 1, fun f hf => ?_⟩
    obtain ⟨f, rfl⟩ : ∃ g, f = g + 1 := ⟨f - 1, by omega⟩
    have hs := parseObjZ_sem (t := t) (exact := ex || t.exactAll) (henv.nodup i ms ex hi) hd.wf hd.mems.depth hd.size
      (fun n hn => hnm _ n (hpl n hn))
      honce (hea ▸ hex) (hf0 f (by omega))
    refine ⟨fun k q hk hq => ?_, fun r hst => ?_⟩
    · obtain ⟨r, hr, ht⟩ := hs k q hk hq
      refine ⟨trimChecked r, ?_, trimChecked_te ht⟩
      simp only [parseUZ, hi, moreZ_text hd.wf hk, ensure_true, Res.ok_bind, hr]
    · obtain ⟨aft, h1, h2, h3⟩ := storedZ_text hst (by simp)
      obtain ⟨r', hr', -⟩ := hs aft.length aft (Nat.le_refl _) (by simp [JVal.ends, JVal.closed, Val.bareLit])
      simp only [parseKZ, hi, h1, h2, moreZ_text hd.wf (Nat.le_refl _), ensure_true, Res.ok_bind, hr']
  | _, _, _, @Reads.tup _ _ _ i ts ex w es vs hi h, hd => by
    obtain ⟨rest, hre, f0, hf0⟩ := tuple_semZ h hd.elems
    refine ⟨f0 + 1, fun f hf => ?_⟩
    obtain ⟨f, rfl⟩ : ∃ g, f = g + 1 := ⟨f - 1, by omega⟩
    rw [hea] at hre
    have hs := parseTupZ_sem (exact := ex || t.exactAll) hd.wf hd.elems.depth (hf0 f (by omega)) hre
    refine ⟨fun k q hk hq => ?_, fun r hst => ?_⟩
    · obtain ⟨r, hr, ht⟩ := hs k q hk hq
      exact ⟨r, by simp only [parseUZ, hi, hr], ht⟩
    · obtain ⟨aft, h1, h2, h3⟩ := storedZ_text hst (by simp)
      obtain ⟨r', hr', -⟩ := hs aft.length aft (Nat.le_refl _) (by simp [JVal.ends, JVal.closed, Val.bareLit])
      simp only [parseKZ, hi, h1, h2, Res.ok_bind, hr']
  | _, _, _, @Reads.ord _ _ _ i ms ex w es vs hi hms hex h, hd => by
    obtain ⟨f0, hf0⟩ := ordered_semZ h hd.elems
    refine ⟨f0 + 1, fun f hf => ?_⟩
    obtain ⟨f, rfl⟩ : ∃ g, f = g + 1 := ⟨f - 1, by omega⟩
    rw [hea] at hf0 hex
    have hs := parseOrdZ_sem t.cfg (exact := ex || t.exactAll) hd.wf hd.elems.depth hd.elems.size hms hex
      (hf0 f (by omega))
    refine ⟨fun k q hk hq => ?_, fun r hst => ?_⟩
    · obtain ⟨r, hr, ht⟩ := hs k q hk hq
      refine ⟨trimChecked r, ?_, trimChecked_te ht⟩
      simp only [parseUZ, hi, moreZ_text hd.wf hk, ensure_true, Res.ok_bind, hr]
    · obtain ⟨aft, h1, h2, h3⟩ := storedZ_text hst (by simp)
      obtain ⟨r', hr', -⟩ := hs aft.length aft (Nat.le_refl _) (by simp [JVal.ends, JVal.closed, Val.bareLit])
      simp only [parseKZ, hi, h1, h2, moreZ_text hd.wf (Nat.le_refl _), ensure_true, Res.ok_bind, hr']
  | _, d, _, @Reads.var _ _ _ i alts n ty _ v hi hty hne h, hd => by
    obtain ⟨f0, hf0⟩ := reads_semZ h hd
    refine ⟨f0 + 1, fun f hf => ?_⟩
    obtain ⟨f, rfl⟩ : ∃ g, f = g + 1 := ⟨f - 1, by omega⟩
    obtain ⟨h1, h2⟩ := hf0 f (by omega)
    refine ⟨fun k q hk hq => ?_, fun r hst => ?_⟩
    · obtain ⟨r, hr, ht⟩ := h1 k q hk hq
      obtain ⟨c, cs, hc, halt⟩ := altOfChar_reads henv t.cfg hi hty h hd.wf hne
      have hdr : frontZ (d.text ++ q) = c := by rw [hc]; rfl
      exact ⟨r, by simp only [parseUZ, hi, hdr, Res.ok_bind, halt, hr], ht⟩
    · simp only [parseKZ, hi]
      simp only [altOfRangeZ_reads henv t.cfg hi hty h hd.wf hst, Res.ok_bind, h2 r hst]
  | _, _, _, @Reads.ivar _ _ _ i tag sw alts ty w jm x v hi hpl honce hex hx hty h, hd => by
    obtain ⟨f0, hf0⟩ := members_semZ hx hd.mems
    obtain ⟨f1, hf1⟩ := reads_semZ h hd
    refine ⟨max f0 f1 + 1, fun f hf => ?_⟩
    obtain ⟨f, rfl⟩ : ∃ g, f = g + 1 := ⟨f - 1, by omega⟩
    obtain ⟨h1, -⟩ := hf1 f (by omega)
    have hs := parseObjZ_sem (t := t) (exact := t.exactAll) (ms := [tag]) (by simp) hd.wf hd.mems.depth hd.size
      (fun n hn => hnm _ n (hpl n hn)) (by simpa using honce)
      (fun he n hn => ⟨tag, by simp, (hex (hea.trans he) n hn).symm⟩) (hf0 f (by omega))
    have halt : altOfTag t.cfg sw alts (.cls [x]) = .ok (sw x, ty) := by simp only [altOfTag, hty]
    have hen := reads_bareLit (by simp) (by simp [JVal.IsLit]) _ h
    refine ⟨fun k q hk hq => ?_, fun r hst => ?_⟩
    · obtain ⟨r', hr', -⟩ := hs k q hk (by simp [JVal.ends, JVal.closed, Val.bareLit])
      obtain ⟨r, hr, ht⟩ := h1 k q hk (by simp [JVal.ends, JVal.closed, hen])
      exact ⟨r, by simp only [parseUZ, hi, moreZ_text hd.wf hk, ensure_true, Res.ok_bind, hr', halt, hr], ht⟩
    · obtain ⟨aft, h3, h4, h5⟩ := storedZ_text hst (by simp)
      obtain ⟨r', hr', -⟩ := hs aft.length aft (Nat.le_refl _) (by simp [JVal.ends, JVal.closed, Val.bareLit])
      obtain ⟨r, hr, -⟩ := h1 aft.length aft (Nat.le_refl _) (by simp [JVal.ends, JVal.closed, hen])
      simp only [parseKZ, hi, h3, h4, moreZ_text hd.wf (Nat.le_refl _), ensure_true, Res.ok_bind, hr', halt, hr]
theorem elems_semZ : ∀ {ty es vs}, ReadsElems Δ nm ea ty es vs → EOk tc es →
    ∃ f0, ∀ f, f0 ≤ f → ElemsSemZ (parseUZ t Δ f ty) es vs
  | _, _, _, .nil, _ => ⟨0, fun _ _ => by simp [ElemsSemZ]⟩
  | _, _, _, .cons h1 h2, hd => by
    obtain ⟨a, ha⟩ := reads_semZ h1 hd.cons.1
    obtain ⟨b, hb⟩ := elems_semZ h2 hd.cons.2
    exact ⟨max a b, fun f hf => ⟨(ha f (by omega)).1, hb f (by omega)⟩⟩
theorem pairs_semZ : ∀ {ty ms kvs}, ReadsPairs Δ nm ea ty ms kvs → MOk tc ms →
    ∃ f0, ∀ f, f0 ≤ f → PairsSemZ (parseUZ t Δ f ty) ms kvs
  | _, _, _, .nil, _ => ⟨0, fun _ _ => by simp [PairsSemZ]⟩
  | _, _, _, .cons hu h1 h2, hd => by
    obtain ⟨a, ha⟩ := reads_semZ h1 hd.cons.1
    obtain ⟨b, hb⟩ := pairs_semZ h2 hd.cons.2.1
    exact ⟨max a b, fun f hf => ⟨hu, hd.cons.2.2, (ha f (by omega)).1, hb f (by omega)⟩⟩
theorem members_semZ : ∀ {ms jm vs}, ReadsMembers Δ nm ea ms jm vs → MOk tc jm →
    ∃ f0, ∀ f, f0 ≤ f → MemSemZ (parseUZ t Δ f) (parseKZ t Δ f) jm ms vs
  | _, _, _, .nil, _ => ⟨0, fun _ _ => by simp [MemSemZ]⟩
  | _, _, _, .found hg h1 h2, hd => by
    obtain ⟨a, ha⟩ := reads_semZ h1 (hd.get hg)
    obtain ⟨b, hb⟩ := members_semZ h2 hd
    refine ⟨max a b, fun f hf => ⟨Or.inl ⟨_, hg, (ha f (by omega)).1, (ha f (by omega)).2, ?_⟩, hb f (by omega)⟩⟩
    rintro rfl
    exact reads_null h1 rfl
  | _, _, _, .absent hg ho h2, hd => by
    obtain ⟨b, hb⟩ := members_semZ h2 hd
    exact ⟨b, fun f hf => ⟨Or.inr ⟨hg, ho, rfl⟩, hb f hf⟩⟩
theorem tuple_semZ : ∀ {ex ts es vs}, ReadsTuple Δ nm ea ex ts es vs → EOk tc es →
    ∃ rest, TupRest ex rest ∧ ∃ f0, ∀ f, f0 ≤ f → TupSemZ (parseUZ t Δ f) rest ts es vs
  | _, _, es, _, .nil hex hna, _ => ⟨es, ⟨hex, hna⟩, 0, fun _ _ => by simp [TupSemZ]⟩
  | _, _, _, _, .cons h1 h2, hd => by
    obtain ⟨a, ha⟩ := reads_semZ h1 hd.cons.1
    obtain ⟨rest, hre, b, hb⟩ := tuple_semZ h2 hd.cons.2
    exact ⟨rest, hre, max a b, fun f hf => ⟨(ha f (by omega)).1, hb f (by omega)⟩⟩
theorem ordered_semZ : ∀ {ex idx ms es vs}, ReadsOrdered Δ nm ea ex idx ms es vs → EOk tc es →
    ∃ f0, ∀ f, f0 ≤ f → OrdSemZ (parseUZ t Δ f) ex idx ms es vs
  | _, _, _, _, _, .nil hex, _ => ⟨0, fun _ _ => .nil hex⟩
  | _, _, _, _, _, .skip hlt h2, hd => by
    obtain ⟨b, hb⟩ := ordered_semZ h2 hd.cons.2
    exact ⟨b, fun f hf => .skip hlt (hb f hf)⟩
  | _, _, _, _, _, .read hw h1 h2, hd => by
    obtain ⟨a, ha⟩ := reads_semZ h1 hd.cons.1
    obtain ⟨b, hb⟩ := ordered_semZ h2 hd.cons.2
    exact ⟨max a b, fun f hf => .read hw (ha f (by omega)).1 (hb f (by omega))⟩
  | _, _, _, _, _, .gone hw ho h2, hd => by
    obtain ⟨b, hb⟩ := ordered_semZ h2 hd
    exact ⟨b, fun f hf => .gone hw ho (hb f hf)⟩
end


/-- `from_json` of a `std::string`: a document followed by the text `q`. -/
theorem fromJsonZ_reads {ty : Ty} {d : JVal} {v : Val} (h : Reads Δ nm ea ty d v) (hd : DOk tc d) (q : Bytes)
    (hq : d.ends v = false → AfterValue q) (hre : dropNul q = [] → v.bareLit = true → d.closed = true) :
    ∃ f0, ∀ f, f0 ≤ f → fromJsonZ t Δ f ty (d.text ++ q) =
      if t.verifyEnd = true ∧ emptyZ 0 (trimChecked (dropNul q)) = false then .err .invalidEndOfValue else .ok v := by
  obtain ⟨f0, hf0⟩ := reads_semZ hck henv hnm hea h hd
  refine ⟨f0, fun f hf => ?_⟩
  obtain ⟨r, hr, htr⟩ := (hf0 f hf).1 0 (dropNul q) (Nat.zero_le _) (fun hc => ⟨afterValue_dropNul (hq hc), fun h1 h2 => by
    cases hl : dropNul q with
    | nil => rw [hre hl h1] at h2; cases h2
    | cons => simp⟩)
  unfold fromJsonZ
  have he : (d.text ++ q).isEmpty = false := text_ne_empty hd.wf q
  have hn : (if (d.text ++ q).getLast? = some 0 then (d.text ++ q).dropLast else d.text ++ q) = d.text ++ dropNul q :=
    dropNul_append hd.wf q
  simp only [he, Bool.not_false, ensure_true, Res.ok_bind, hn, hr, trimChecked_trimEq htr]
  cases t.verifyEnd with
  | false => simp
  | true => cases emptyZ 0 (trimChecked (dropNul q)) <;> simp [ensure]

/-- `from_json` of a `std::string` that is a document. -/
theorem fromJsonZ_doc {ty : Ty} {d : JVal} {v : Val} (h : Reads Δ nm ea ty d v) (hd : DOk tc d)
    (hre : v.bareLit = true → d.closed = true) : ∃ f0, ∀ f, f0 ≤ f → fromJsonZ t Δ f ty d.text = .ok v := by
  obtain ⟨f0, hf0⟩ := fromJsonZ_reads hck henv hnm hea h hd [] (fun _ => afterValue_nil) (fun _ => hre)
  refine ⟨f0, fun f hf => ?_⟩
  have := hf0 f hf
  simpa [dropNul, trimChecked, emptyZ, moreZ] using this

/-- The members of a class with one missing that is not nullable. -/
theorem parseObjZ_missing {ms : List Member} {exact : Bool} {w : Bytes} {jm : JMems}
    (hnd : (ms.map Member.name).Nodup) (hd : DOk tc (.obj w jm))
    (hok : ∀ n ∈ jm.names, nm (ms.map Member.name) n) (honce : ∀ m ∈ ms, jm.names.count m.name ≤ 1)
    (hex : exact = true → ∀ n ∈ jm.names, ∃ m ∈ ms, m.name = n)
    (hread : ∀ m ∈ ms, ∀ d, jm.get? m.name = some d → ∃ v, Reads Δ nm ea m.ty d v)
    {m : Member} (hm : m ∈ ms) (ho : m.ty.isOpt = false) (hg : jm.get? m.name = none) :
    ∃ f0, ∀ f, f0 ≤ f → parseObjZ t exact ms (parseUZ t Δ f) (parseKZ t Δ f) 0 (JVal.obj w jm).text = .err .missingMember := by
  -- the members before the first one that is missing
  have hsplit : ∀ ms' : List Member, (∀ m ∈ ms', m ∈ ms) → (∃ m ∈ ms', m.ty.isOpt = false ∧ jm.get? m.name = none) →
      ∃ a m b vs, ms' = a ++ m :: b ∧ m.ty.isOpt = false ∧ jm.get? m.name = none ∧ ReadsMembers Δ nm ea a jm vs := by
    intro ms'
    induction ms' with
    | nil => rintro - ⟨m, hm, -⟩; simp at hm
    | cons x xs ih =>
      intro hsub hex
      by_cases hx : x.ty.isOpt = false ∧ jm.get? x.name = none
      · exact ⟨[], x, xs, [], rfl, hx.1, hx.2, .nil⟩
      · obtain ⟨m', hm', h1, h2⟩ := hex
        have hm'' : m' ∈ xs := by
          rcases List.mem_cons.1 hm' with rfl | h
          · exact absurd ⟨h1, h2⟩ hx
          · exact h
        obtain ⟨a, m, b, vs, rfl, h3, h4, h5⟩ := ih (fun m hm => hsub m (by simp [hm])) ⟨m', hm'', h1, h2⟩
        cases hxg : jm.get? x.name with
        | some d =>
          obtain ⟨v, hv⟩ := hread x (hsub x (by simp)) d hxg
          exact ⟨x :: a, m, b, v :: vs, rfl, h3, h4, .found hxg hv h5⟩
        | none =>
          have : x.ty.isOpt = true := by
            cases h : x.ty.isOpt with
            | true => rfl
            | false => exact absurd ⟨h, hxg⟩ hx
          exact ⟨x :: a, m, b, .none :: vs, rfl, h3, h4, .absent hxg this h5⟩
  obtain ⟨a, m, b, vs, hms, hmo, hmg, ha⟩ := hsplit ms (fun _ h => h) ⟨m, hm, ho, hg⟩
  obtain ⟨f0, hf0⟩ := members_semZ hck henv hnm hea ha hd.mems
  refine ⟨f0, fun f hf => ?_⟩
  have hsem := hf0 f hf
  have hw := hd.wf
  simp only [JVal.WFt] at hw
  have hlocs : ∀ (k : Nat) (n : Bytes), (ms.map Member.name)[k]? = some n →
      (ms.map fun _ => (none : Option ZRange))[k]? = some none := by
    intro k n hn
    rw [List.getElem?_map] at hn ⊢
    cases h : ms[k]? with
    | none => rw [h] at hn; simp at hn
    | some m => rfl
  have hinv : CInvZ t tc exact (ms.map Member.name) 0 jm jm (ms.map fun _ => none) := by
    refine ⟨by simp, hw.2, hd.mems.depth, hd.mems.size, fun n hn => hnm _ n (hok n hn), ?_, ?_, ?_, ?_⟩
    · intro n hn
      obtain ⟨m, hm, rfl⟩ := List.mem_map.1 hn
      exact honce m hm
    · intro he n hn
      obtain ⟨m, hm, rfl⟩ := hex he n hn
      exact List.mem_map_of_mem hm
    · exact fun k n d _ hn hg => ⟨hg, hlocs k n hn⟩
    · exact fun k n _ hn hg => Or.inl ⟨hg, hlocs k n hn⟩
  obtain ⟨b₀, hb₀, hmv⟩ := obj_open (k := []) hd.wf
  obtain ⟨b', rest', locs', h1, h2, h3⟩ := classMembersZ_prefix hnd (q := []) (k := 0) (Nat.le_refl _) hw.1 (m :: b) a vs 0 jm _
    (trimChecked b₀) (by simp [← hms]) hinv hmv hsem
  have hpos : (ms.map Member.name)[0 + a.length]? = some m.name := by simp [hms]
  have hgr : rest'.get? m.name = none ∧ (locs'[0 + a.length]?) = some none := by
    cases hr : rest'.get? m.name with
    | some d => have := (h3.ahead _ _ d (Nat.le_refl _) hpos hr).1; rw [hmg] at this; simp at this
    | none =>
      refine ⟨rfl, ?_⟩
      rcases h3.behind _ _ (Nat.le_refl _) hpos hr with ⟨-, h⟩ | ⟨d, h, -⟩ | ⟨d, _, h, -⟩
      · exact h
      · rw [hmg] at h; simp at h
      · rw [hmg] at h; simp at h
  obtain ⟨locs'', hfl, -⟩ := (findLoopZ_sem hnd hpos (q := []) (k := 0) (Nat.le_refl _) hw.1 rest' locs' h3).2 hgr.1
  have hcm : classMembersZ t exact (ms.map Member.name) (parseUZ t Δ f) (parseKZ t Δ f) 0 (0 + a.length) (m :: b)
      locs' b' = .err .missingMember := by
    unfold classMembersZ
    simp only [h2, Res.ok_bind, objRest_okZ (Nat.zero_le _), ensure_true]
    simp only [findMemberZ, hgr.2, hmo, Option.join, Option.bind, Bool.false_or, trimChecked_objRest]
    by_cases hat : atZ chRBrace 0 (objRest w [] rest') = true
    · simp [hat, ensure]
    · rw [Nat.zero_add] at hfl
      simp [hat, ensure_true, hfl]
  unfold parseObjZ
  rw [List.append_nil] at hb₀
  have e : ms = a ++ m :: b := hms
  have hle : (objRest w [] jm).length ≤ b₀.length := by
    rw [← hmv]
    exact Nat.le_trans (moveNext_le _) (trimChecked_suffix b₀).length_le
  have hat : atZ chLBrace 0 (chLBrace :: b₀) = true := atZ_cons (by have := objRest_gt w [] jm; omega)
  simp only [hb₀, hat, Res.ok_bind, ensure_true, List.tail_cons]
  rw [← e] at h1
  rw [h1, hcm]
  rfl

/-- A class with a member missing that is not nullable. -/
theorem fromJsonZ_missing {i : Nat} {ms : List Member} {ex : Bool} {w : Bytes} {jm : JMems}
    (hi : Δ i = .obj ms ex) (hd : DOk tc (.obj w jm))
    (hok : ∀ n ∈ jm.names, nm (ms.map Member.name) n) (honce : ∀ m ∈ ms, jm.names.count m.name ≤ 1)
    (hex : (ex || ea) = true → ∀ n ∈ jm.names, ∃ m ∈ ms, m.name = n)
    (hread : ∀ m ∈ ms, ∀ d, jm.get? m.name = some d → ∃ v, Reads Δ nm ea m.ty d v)
    {m : Member} (hm : m ∈ ms) (ho : m.ty.isOpt = false) (hg : jm.get? m.name = none) :
    ∃ f0, ∀ f, f0 ≤ f → fromJsonZ t Δ f (.ref i) (JVal.obj w jm).text = .err .missingMember := by
  obtain ⟨f0, hf0⟩ := parseObjZ_missing hck henv hnm hea (exact := ex || t.exactAll) (henv.nodup i ms ex hi) hd hok honce (hea ▸ hex)
    hread hm ho hg
  refine ⟨f0 + 1, fun f hf => ?_⟩
  obtain ⟨f, rfl⟩ : ∃ g, f = g + 1 := ⟨f - 1, by omega⟩
  have hobj := hf0 f (by omega)
  have hne := text_ne_empty hd.wf []
  have hmo := moreZ_text hd.wf (k := 0) (q := []) (Nat.le_refl _)
  rw [List.append_nil] at hne hmo
  unfold fromJsonZ
  simp only [hne, Bool.not_false, ensure_true, Res.ok_bind, if_neg (text_last hd.wf), parseUZ, hi, hmo, hobj, Res.err_bind]

end

end Verif
