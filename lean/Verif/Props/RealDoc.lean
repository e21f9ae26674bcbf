import Verif.Props.Text
import Verif.Props.Real
import Verif.Props.Schema

/-!
# Property C87: reals inside of documents

`json_number` of `double` and `float` as members, elements and documents.  A real is the decimal fraction that is computed from,
before it is rounded to a floating point number.
-/

namespace Verif

open Spec

theorem digits_split {a b a' b' : Bytes} (ha : ∀ c ∈ a, IsDig c) (ha' : ∀ c ∈ a', IsDig c) (hb : NoDig b) (hb' : NoDig b')
    (h : a ++ b = a' ++ b') : a = a' ∧ b = b' := by
  induction a generalizing a' with
  | nil =>
    cases a' with
    | nil => exact ⟨rfl, h⟩
    | cons c a' =>
      simp only [List.nil_append, List.cons_append] at h
      exact absurd (ha' c (by simp)) (hb c (by rw [h]; rfl))
  | cons c a ih =>
    cases a' with
    | nil =>
      simp only [List.nil_append, List.cons_append] at h
      exact absurd (ha c (by simp)) (hb' c (by rw [← h]; rfl))
    | cons c' a' =>
      simp only [List.cons_append, List.cons.injEq] at h
      obtain ⟨h1, h2⟩ := ih (fun c hc => ha c (by simp [hc])) (fun c hc => ha' c (by simp [hc])) h.2
      exact ⟨by rw [h.1, h1], h2⟩

theorem expDenotes_noDig {x : Bytes} {e : Int} (h : ExpDenotes x e) : NoDig x := by
  rcases h with ⟨rfl, -⟩ | ⟨c, ds, hc, -, h⟩
  · intro y hy; cases hy
  · have : x.head? = some c := by rcases h with ⟨rfl, -⟩ | ⟨rfl, -⟩ | ⟨rfl, -⟩ <;> rfl
    intro y hy
    rw [this] at hy
    cases hy
    rcases hc with rfl | rfl <;> (unfold IsDig; decide)

theorem expDenotes_head {x : Bytes} {e : Int} (h : ExpDenotes x e) : x.head? ≠ some 0x2E := by
  rcases h with ⟨rfl, -⟩ | ⟨c, ds, hc, -, h⟩
  · simp
  · have : x.head? = some c := by rcases h with ⟨rfl, -⟩ | ⟨rfl, -⟩ | ⟨rfl, -⟩ <;> rfl
    rw [this]
    rcases hc with rfl | rfl <;> decide

theorem expDenotes_unique {x : Bytes} {e e' : Int} (h : ExpDenotes x e) (h' : ExpDenotes x e') : e = e' := by
  have nd : ∀ {ds : Bytes} {c : UInt8} {tl : Bytes}, IsDigits ds → ds = c :: tl → IsDig c := fun h hc => h.2 _ (by simp [hc])
  have n1 : ¬ IsDig 0x2B := by unfold IsDig; decide
  have n2 : ¬ IsDig 0x2D := by unfold IsDig; decide
  rcases h with ⟨rfl, rfl⟩ | ⟨c, ds, -, hd, h⟩ <;> rcases h' with ⟨h0, rfl⟩ | ⟨c', ds', -, hd', h'⟩
  · rfl
  · rcases h' with ⟨h', -⟩ | ⟨h', -⟩ | ⟨h', -⟩ <;> cases h'
  · subst h0
    rcases h with ⟨h, -⟩ | ⟨h, -⟩ | ⟨h, -⟩ <;> cases h
  · rcases h with ⟨rfl, rfl⟩ | ⟨rfl, rfl⟩ | ⟨rfl, rfl⟩ <;> rcases h' with ⟨h', rfl⟩ | ⟨h', rfl⟩ | ⟨h', rfl⟩ <;>
      simp only [List.cons.injEq] at h'
    · rw [h'.2]
    · exact absurd (nd hd h'.2) n1
    · exact absurd (nd hd h'.2) n2
    · exact absurd (nd hd' h'.2.symm) n1
    · rw [h'.2.2]
    · exact absurd h'.2.1 (by decide)
    · exact absurd (nd hd' h'.2.symm) n2
    · exact absurd h'.2.1 (by decide)
    · rw [h'.2.2]

/-- A number text has one sign, one row of digits before and after the point and one exponent. -/
theorem numText_unique {x : Bytes} {neg neg' : Bool} {i i' fd fd' : Bytes} {e e' : Int} (h : NumText x neg i fd e)
    (h' : NumText x neg' i' fd' e') : neg = neg' ∧ i = i' ∧ fd = fd' ∧ e = e' := by
  obtain ⟨f, y, hi, hf, hy, rfl⟩ := h
  obtain ⟨f', y', hi', hf', hy', h⟩ := h'
  have nf : ∀ {f fd y : Bytes} {e : Int}, FracDigits f fd → ExpDenotes y e → NoDig (f ++ y) := by
    intro f fd y e hf hy
    rcases hf with ⟨rfl, -⟩ | ⟨rfl, -⟩
    · exact expDenotes_noDig hy
    · intro c hc
      cases hc
      unfold IsDig
      decide
  have hdi := isInt_digits hi
  have hdi' := isInt_digits hi'
  obtain ⟨c, t, hc, hcd⟩ := isDigits_head hdi
  obtain ⟨c', t', hc', hcd'⟩ := isDigits_head hdi'
  have nm : ¬ IsDig 0x2D := by unfold IsDig; decide
  have hneg : neg = neg' := by
    cases neg <;> cases neg' <;> simp only [if_true, Bool.false_eq_true, if_false, hc, hc', List.cons_append, List.nil_append,
      List.cons.injEq] at h
    · rfl
    · exact absurd (h.1 ▸ hcd) nm
    · exact absurd (h.1 ▸ hcd') nm
    · rfl
  subst hneg
  obtain ⟨rfl, h2⟩ := digits_split hdi.2 hdi'.2 (nf hf hy) (nf hf' hy') (List.append_cancel_left h)
  have key : fd = fd' ∧ y = y' := by
    rcases hf with ⟨rfl, rfl⟩ | ⟨rfl, hfd⟩ <;> rcases hf' with ⟨rfl, rfl⟩ | ⟨rfl, hfd'⟩
    · exact ⟨rfl, h2⟩
    · exact absurd (by rw [show y = _ from h2]; rfl) (expDenotes_head hy)
    · exact absurd (by rw [show y' = _ from h2.symm]; rfl) (expDenotes_head hy')
    · simp only [List.cons_append, List.cons.injEq, true_and] at h2
      exact digits_split hfd.2 hfd'.2 (expDenotes_noDig hy) (expDenotes_noDig hy') h2
  obtain ⟨rfl, rfl⟩ := key
  exact ⟨rfl, rfl, rfl, expDenotes_unique hy hy'⟩

theorem numVal_unique {x : Bytes} {neg : Bool} {i fd : Bytes} {e : Int} {q : ℚ} (h : NumText x neg i fd e) (hq : NumDenotes x q) :
    numVal neg i fd e = q := by
  obtain ⟨neg', i', fd', e', h', rfl⟩ := (numDenotes_iff _ _).1 hq
  obtain ⟨rfl, rfl, rfl, rfl⟩ := numText_unique h h'
  rfl

/-! ## C87 -/

/-- **C87**, members, partial.  A real member is given the number that the document has for it, wherever the member stands in the object,
whatever else the object has, in a `string_view` and in a `std::string`.  Missing: numbers with 18 (`float`: 10) digits or more, see
`C87_false_for_many_digits`. -/
theorem C87_real_members_partial (t : TCfg) (hck : t.cfg.checked = true) (Δ : Env) (henv : EnvOk Δ) {i : Nat}
    {ms : List Member} {ex : Bool} (hi : Δ i = .obj ms ex) (w : Bytes) (jm : JMems)
    (hn : ∀ n ∈ jm.names, Usable t (ms.map Member.name) n) (honce : ∀ m ∈ ms, jm.names.count m.name ≤ 1)
    (hex : (ex || t.exactAll) = true → ∀ n ∈ jm.names, ∃ m ∈ ms, m.name = n)
    (hread : ∀ m ∈ ms, ∀ d, jm.get? m.name = some d → ∃ v, Reads Δ (Usable t) t.exactAll m.ty d v)
    (hopt : ∀ m ∈ ms, jm.get? m.name = none → m.ty.isOpt = true) (hw : (JVal.obj w jm).WF) (hf : (JVal.obj w jm).Fits) :
    ∃ vs f0, (∀ f, f0 ≤ f → fromJson t Δ f (.ref i) (JVal.obj w jm).text = .ok (.cls vs) ∧
        fromJsonZ t Δ f (.ref i) (JVal.obj w jm).text = .ok (.cls vs)) ∧ vs.length = ms.length ∧
      ∀ (p : Nat) (n x : Bytes) (dbl : Bool) (fmt : FPFmt) (q : ℚ), ms[p]? = some ⟨n, .txt (.real dbl fmt)⟩ →
        jm.get? n = some (.num x) → NumDenotes x q → ∃ r, vs[p]? = some (Val.real r) ∧ r.val = q := by
  obtain ⟨vs, f0, h1, h2, h3⟩ := class_members t hck Δ henv hi w jm hn honce hex hread hopt hw hf
  refine ⟨vs, f0, h1, h2, fun p n x dbl fmt q hp hg hq => ?_⟩
  obtain ⟨v, hv, hr⟩ := h3 p _ _ hp hg
  cases hr with
  | txt hr =>
    cases hr with
    | real hx _ _ _ hval => exact ⟨_, hv, by rw [hval]; exact numVal_unique hx hq⟩

/-- `struct R { double x; float y; optional<vector<double>> z; }`. -/
def exRMs : List Member := [⟨asc! "x", .txt (.real true .auto)⟩, ⟨asc! "y", .txt (.real false .auto)⟩,
  ⟨asc! "z", .opt (.arr (.txt (.real true .decimal)))⟩]

def exREnv : Env := fun _ => .obj exRMs false

/-- `{"y":5,"x":-1.25e+3}` -/
def exRJm : JMems := .cons [] asc! "y" [] [] (.num asc! "5") [] (.cons [] asc! "x" [] [] (.num asc! "-1.25e+3") [] .nil)

theorem exREnv_ok : EnvOk exREnv := by
  refine .classes (fun i ms ex h => ?_) (fun i alts h => by cases h)
  cases h
  decide

theorem exFive_text : NumText asc! "5" false asc! "5" [] 0 :=
  ⟨[], [], Or.inr ⟨⟨by decide, by unfold IsDig; decide⟩, by decide⟩, Or.inl ⟨rfl, rfl⟩, Or.inl ⟨rfl, rfl⟩, rfl⟩

theorem exFive_reads {dbl : Bool} {fmt : FPFmt} : ReadsTxt (.real dbl fmt) (.num asc! "5") (.real ⟨false, 5, 0⟩) :=
  .real exFive_text (by cases dbl <;> decide) (by decide) (Or.inl (by decide)) (by
    simp [Dec.val, numVal, numAbs, decVal, digVal])

theorem exReal_reads {fmt : FPFmt} : ReadsTxt (.real true fmt) (.num asc! "-1.25e+3") (.real ⟨true, 125, 1⟩) :=
  .real exRealText (by decide) (by decide) (Or.inl (by decide)) (by
    simp [Dec.val, numVal, numAbs, decVal, digVal])

theorem exRJm_read : ∀ m ∈ exRMs, ∀ d, exRJm.get? m.name = some d → ∃ v, Reads exREnv (Usable {}) false m.ty d v := by
  intro m hm d hg
  simp only [exRMs, List.mem_cons, List.not_mem_nil, or_false] at hm
  rcases hm with rfl | rfl | rfl <;> cases hg
  · exact ⟨_, .txt exReal_reads⟩
  · exact ⟨_, .txt exFive_reads⟩

theorem exRJm_usable : ∀ n ∈ exRJm.names, Usable {} (exRMs.map Member.name) n := by
  intro n hn
  refine usable_own ?_ (Or.inl ?_) <;> revert n
  · decide
  · unfold PlainName
    decide

theorem exRJm_wf : (JVal.obj [] exRJm).WF :=
  ⟨Or.inl ws_nil, ws_nil, plainBody (by decide), ws_nil, ws_nil, numText_isNumber exFive_text, ws_nil,
    ws_nil, plainBody (by decide), ws_nil, ws_nil, numText_isNumber exRealText, ws_nil, trivial⟩

/-- Non-vacuity: `{"y":5,"x":-1.25e+3}` has -1250 for `x` and 5 for `y`. -/
example : ∃ vs f0, (∀ f, f0 ≤ f → fromJson {} exREnv f (.ref 0) (JVal.obj [] exRJm).text = .ok (.cls vs) ∧
      fromJsonZ {} exREnv f (.ref 0) (JVal.obj [] exRJm).text = .ok (.cls vs)) ∧
    (∃ r, vs[0]? = some (Val.real r) ∧ r.val = -1250) ∧ ∃ r, vs[1]? = some (Val.real r) ∧ r.val = 5 := by
  obtain ⟨vs, f0, h1, _, h2⟩ := C87_real_members_partial {} rfl exREnv exREnv_ok (i := 0) (ms := exRMs) (ex := false) rfl
    [] exRJm exRJm_usable (by decide) (by simp) exRJm_read (by
      intro m hm hg
      simp only [exRMs, List.mem_cons, List.not_mem_nil, or_false] at hm
      rcases hm with rfl | rfl | rfl <;> first | rfl | cases hg) exRJm_wf ⟨by decide, by decide⟩
  refine ⟨vs, f0, h1, h2 0 _ _ _ _ _ rfl rfl ((numDenotes_iff _ _).2 ⟨_, _, _, _, exRealText, ?_⟩),
    h2 1 _ _ _ _ _ rfl rfl ((numDenotes_iff _ _).2 ⟨_, _, _, _, exFive_text, ?_⟩)⟩
  · simp [numVal, numAbs, decVal, digVal]; norm_num
  · simp [numVal, numAbs, decVal, digVal]

/-- **C87**, round trip, partial.  What `to_json` writes for a real is a JSON number that denotes it, and is read back as the same real
from a `std::string`, and from a `string_view` if something follows it or it has a fraction or an exponent.  (That reals survive inside
of classes, arrays and maps is part of C18 and C62.)  Missing: reals of more digits than the parser takes, see
`C87_false_for_many_digits`, and whole numbers at the very end of a `string_view`, see `C87_false_at_end`. -/
theorem C87_round_trip_partial (w : WCfg) (t : TCfg) (hck : t.cfg.checked = true) (Δ : Env) (henv : EnvOk Δ) (dbl : Bool) (fmt : FPFmt)
    (r : Dec) (hr : HasReal dbl fmt r) :
    ∃ out, toJson w Δ (.txt (.real dbl fmt)) (.real r) = .ok out ∧ NumDenotes out r.val ∧ (out.length < 2 ^ 63 →
      (∃ f0, ∀ f, f0 ≤ f → fromJsonZ t Δ f (.txt (.real dbl fmt)) out = .ok (.real r)) ∧
      ∀ k, IsWs k → (k ≠ [] ∨ 0x2E ∈ out ∨ 0x65 ∈ out) →
        ∃ f0, ∀ f, f0 ≤ f → fromJson t Δ f (.txt (.real dbl fmt)) (out ++ k) = .ok (.real r)) := by
  obtain ⟨out, h1, h2⟩ := toChars_reads hr
  have h0 : NumDenotes out r.val := by
    cases h2 with
    | real hx _ _ _ hval => exact (numDenotes_iff _ _).2 ⟨_, _, _, _, hx, hval⟩
  have hw : (JVal.num out).WF := by
    cases h2 with
    | real hx _ _ _ hval => exact numText_isNumber hx
  refine ⟨out, h1, h0, fun hl => ?_⟩
  have hf : (JVal.num out).Fits := ⟨by simp [JVal.depth], hl⟩
  refine ⟨C62_std_string_reads t hck Δ henv _ (.num out) (.real r) (.txt h2) hw hf (fun h => by cases h), fun k hk he => ?_⟩
  obtain ⟨f0, hf0⟩ := C43_trailing_text_partial t hck Δ henv _ (.num out) (.real r) (.txt h2) hw hf k
    (Or.inr ⟨k, [], hk, by simp, Or.inl rfl⟩) (by
      rw [dropNul_ws hk]
      refine fun hk0 => ⟨rfl, fun _ => ?_⟩
      rcases he with he | he | he
      · exact absurd hk0 he
      · exact ⟨_, he, Or.inl rfl⟩
      · exact ⟨_, he, Or.inr (Or.inl rfl)⟩)
  have hs : LibSpace (dropNul k) := by
    rw [dropNul_ws hk]
    intro c hc
    have := hk c hc
    unfold isWsByte at this
    revert this
    simp only [UInt8.le_iff_toNat_le]
    rintro (rfl | rfl | rfl | rfl) <;> decide
  refine ⟨f0, fun f hfu => ?_⟩
  obtain ⟨g1, g2, -⟩ := hf0 f hfu
  cases hv : t.verifyEnd with
  | false => exact g1 hv
  | true => exact g2 hv hs

/-- Non-vacuity: -1250 as a `double` in scientific format. -/
example : ∃ out, toJson {} exREnv (.txt (.real true .scientific)) (.real ⟨true, 125, 1⟩) = .ok out ∧ 0x65 ∈ out ∧
    ∃ f0, ∀ f, f0 ≤ f → fromJson {} exREnv f (.txt (.real true .scientific)) (out ++ []) = .ok (.real ⟨true, 125, 1⟩) := by
  obtain ⟨out, h1, -, h2⟩ := C87_round_trip_partial {} {} rfl exREnv exREnv_ok true .scientific ⟨true, 125, 1⟩
    ⟨Or.inl (by decide), by decide, by decide, trivial⟩
  have h3 : toJson {} exREnv (.txt (.real true .scientific)) (.real ⟨true, 125, 1⟩) = .ok asc! "-1.25e3" := by decide +kernel
  rw [h3] at h1
  cases h1
  exact ⟨_, h3, by decide, (h2 (by decide)).2 [] ws_nil (Or.inr (Or.inr (by decide)))⟩

/-- **C87 is false of the code** for whole numbers at the very end of a `string_view`: the byte behind the view is read.  The double 5.0
is written as `5`, which cannot be read back this way; from a `std::string` it is. -/
theorem C87_false_at_end :
    toJson {} exREnv (.txt (.real true .auto)) (.real ⟨false, 5, 0⟩) = .ok asc! "5" ∧
    fromJson {} exREnv 9 (.txt (.real true .auto)) asc! "5" = .ub ∧
    fromJsonZ {} exREnv 9 (.txt (.real true .auto)) asc! "5" = .ok (.real ⟨false, 5, 0⟩) := by decide +kernel

/-- The same for every whole number of at most 18 digits. -/
theorem C87_false_for_whole_numbers (Δ : Env) (f : Nat) (fmt : FPFmt) (ds : Bytes) (hi : IsInt ds) (hl : ds.length ≤ 18) :
    fromJson {} Δ (f + 1) (.txt (.real true fmt)) ds = .ub := by
  have hd := isInt_digits hi
  have hne : ds.isEmpty = false := by
    cases ds with
    | nil => exact absurd rfl hd.1
    | cons => rfl
  have hl0 : ds.getLast? ≠ some 0 := by
    intro h0
    have := hd.2 0 (List.mem_of_getLast? h0)
    unfold IsDig at this
    revert this
    decide
  have hp : realUnknown (Cfg.real {} false true) ds = .ub := C58_end_false (Cfg.real {} false true) rfl rfl rfl ds hi hl
  simp only [fromJson, hne, Bool.not_false, ensure_true, Res.ok_bind, if_neg hl0, parseU, parseTxt, parseReal, hp, Res.ub_bind]

/-- `struct R2 { double a; double x; }`. -/
def exREnv2 : Env := fun _ => .obj [⟨asc! "a", .txt (.real true .auto)⟩, ⟨asc! "x", .txt (.real true .auto)⟩] false

/-- **C87 is false of the code** for reals with many digits: 1.2345678901234567e-4 as a member is written with all its digits and loses
four of them when it is read from a `string_view`; if it stands in front of a member that is mapped before it, in a
`std::string`, the number read is a thousand times as large. -/
theorem C87_false_for_many_digits :
    toJson {} exREnv (.ref 0) (.cls [.real ⟨false, 12345678901234567, -20⟩, .real ⟨false, 5, 0⟩, .none]) =
      .ok asc! "{\"x\":0.00012345678901234567,\"y\":5}" ∧
    fromJson {} exREnv 9 (.ref 0) asc! "{\"x\":0.00012345678901234567,\"y\":5}" =
      .ok (.cls [.real ⟨false, 1234567890123, -16⟩, .real ⟨false, 5, 0⟩, .none]) ∧
    fromJsonZ {} exREnv2 9 (.ref 0) asc! "{\"x\":0.00012345678901234567,\"a\":5}" =
      .ok (.cls [.real ⟨false, 5, 0⟩, .real ⟨false, 12345678901234567, -17⟩]) := by decide +kernel

end Verif
