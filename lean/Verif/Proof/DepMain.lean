import Verif.Proof.DepSem

/-!
# Members that depend on another member: `from_json` computes the meaning of the document
-/

namespace Verif

open Spec

theorem at_get {full : JMems} {w k n a : Bytes} {d : JVal} (h : At full w k n a) (hc : full.names.count n ≤ 1) (hg : full.get? n = some d)
    (hs : ∀ b, d ≠ .str b) :
    ∃ (U : JMems) (pre pc qc post : Bytes) (tl : JMems), full = U.app (.cons pre n pc qc d post tl) ∧ a = objAfter post tl w k := by
  obtain ⟨U, pre, pc, qc, d', post, tl, rfl, ha⟩ := h
  have hU : n ∉ U.names := by
    intro hm
    have := List.count_pos_iff.2 hm
    rw [names_app, JMems_names_cons, List.count_append, List.count_cons_self] at hc
    omega
  rw [get?_app, JMems_get?_none.2 hU, JMems_get?_cons, if_pos rfl] at hg
  obtain rfl : d' = d := by simpa using hg
  exact ⟨U, pre, pc, qc, post, tl, rfl, ha hs⟩

theorem before_get {U X : JMems} {m : Bytes} (hm : m ∈ U.names) : (U.app X).get? m = U.get? m := by
  obtain ⟨d, hd⟩ := mem_names_iff.1 hm
  rw [get?_app, hd]; rfl

theorem isNumber_stored {tc : Bool} {d : JVal} {r : Range} {a : Bytes} (h : Stored d r a) (hs : ∀ b, d ≠ .str b) (hn : ∀ b, d ≠ .num b)
    (_ : d.WFt tc) : r.isNumber = false := by
  unfold Range.isNumber
  rw [stored_text h hs]
  match d with
  | .str b => exact absurd rfl (hs b)
  | .num b => exact absurd rfl (hn b)
  | .null => exact absurd rfl h.1
  | .tru | .fls => simp [JVal.text, headIs, isDigit]; exact fun _ => by decide
  | .arr w es => cases es <;> (simp [JVal.text, headIs, isDigit]; exact fun _ => by decide)
  | .obj w ms => cases ms <;> (simp [JVal.text, headIs, isDigit]; exact fun _ => by decide)

theorem enc_names (j : Nat) (ms : List DMember) : (encMembers j ms).map Member.name = ms.map DMember.name := by
  induction ms generalizing j with
  | nil => rfl
  | cons m ms ih => simp [encMembers, ih]

theorem depU_ref (t : TCfg) (Δ : Env) (f : Nat) (cls : Bytes) {all : List DMember} {j : Nat} {m : DMember} (h : all[j]? = some m) :
    depU t Δ f cls all (.ref j) = depHere t Δ f cls m.ty := funext fun b => by simp only [depU, h]

theorem depK_ref (t : TCfg) (Δ : Env) (f : Nat) (cls : Bytes) {all : List DMember} {j : Nat} {m : DMember} (h : all[j]? = some m) :
    depK t Δ f cls all (.ref j) = depKnown t Δ f cls m.ty := funext fun b => funext fun a => by simp only [depK, h]

theorem placeOk_some {jm : JMems} {N : List Bytes} {p : Nat} {m : DMember} {b : Bool} {v : Val}
    (h : PlaceOk jm N p m (if b then .some v else v)) : PlaceOk jm N p m v := by
  cases b with
  | false => exact h
  | true =>
    unfold PlaceOk at h ⊢
    split at h <;> exact h

section
variable {t : TCfg} {tc : Bool} {Δ : Env} {nm : List Bytes → Bytes → Prop} {ea : Bool} (hck : t.cfg.checked = true) (henv : EnvOk Δ)
  (hnm : ∀ N n, nm N n → NameOk t N n ∧ (PlainName n ∨ t.escNames = true)) (hea : ea = t.exactAll)
include hck henv hnm hea

/-- One member, if it is not passed over or from its range. -/
theorem dep_sem {w k : Bytes} {jm : JMems} (hd : DOk tc (.obj w jm)) (hpl : ∀ n ∈ jm.names, PlainName n ∨ t.escNames = true)
    {N : List Bytes} {p : Nat} {m : DMember} {d : JVal} {v : Val} (hone : jm.names.count m.name ≤ 1)
    (hg : jm.get? m.name = some d) (hne : d ≠ .null) (h : ReadsDep Δ nm ea jm m.ty d v) (hp : PlaceOk jm N p m v) :
    ∃ f0, ∀ f, f0 ≤ f → SemU t.cfg.checked (depHere t Δ f ((JVal.obj w jm).text ++ k) m.ty) d v ∧
      (jm.InPlace N p ∨ ∀ r a, Stored d r a → At jm w k m.name a → depKnown t Δ f ((JVal.obj w jm).text ++ k) m.ty r a = .ok v) := by
  have hdd := hd.mems.get hg
  unfold PlaceOk at hp
  revert hp
  generalize hT : m.ty = T at h
  intro hp
  cases h with
  | plain h =>
    obtain ⟨f0, hf0⟩ := reads_sem hck henv hnm hea h hdd
    exact ⟨f0, fun f hf => ⟨(hf0 f hf).1, Or.inr fun r a hst _ => (hf0 f hf).2 r a hst⟩⟩
  | @tagged tag sw wr alts x ty _ v hpl' honce hex hx hty h =>
    obtain ⟨f0, hf0⟩ := reads_sem hck henv hnm hea h hdd
    obtain ⟨f1, hf1⟩ := readTag_sem hck henv hnm hea hd hpl' honce hex hx
    refine ⟨max f0 f1, fun f hf => ?_⟩
    have halt : altOfTag t.cfg sw alts (.cls [x]) = .ok (sw x, ty) := by simp only [altOfTag, hty]
    have hs := (hf0 f (by omega)).1
    refine ⟨fun K hK hns => ?_, ?_⟩
    · obtain ⟨r, hr, ht⟩ := hs K (fun hc => ⟨(hK hc).1, fun h0 => (hK hc).2 h0⟩) hns
      exact ⟨r, by simp only [depHere, hf1 f (by omega) k, Res.ok_bind, halt, hr], ht⟩
    · rcases hp with hp | hp
      · exact Or.inl hp
      · refine Or.inr fun r a hst _ => ?_
        obtain ⟨hk1, hk2, hk3⟩ := hp d hg
        have hns : ∀ b, d ≠ .str b := by rintro b rfl; exact hk2 rfl
        have hnn : ∀ b, d ≠ .num b := by rintro b rfl; exact hk1 rfl
        obtain ⟨r', hr', -⟩ := hs [] (fun _ => ⟨afterValue_nil, fun _ => ⟨hk3, fun h' => by rw [reads_bareReal hnn v h] at h'; cases h'⟩⟩) (by simp [hck])
        simp only [depKnown, isNumber_stored hst hns hnn hdd.wf, Bool.false_eq_true, if_false, hf1 f (by omega) k, Res.ok_bind, halt,
          inside_stored t hst hns hnn, Range.seen, hck, if_true, stored_text hst hns]
        rw [List.append_nil] at hr'
        simp only [hr', Res.ok_bind]
  | @sized size elem dn n _ vs hgs hsz h =>
    obtain ⟨f0, hf0⟩ := reads_sem hck henv hnm hea h hdd
    obtain ⟨f1, hf1⟩ := readSize_sem hck henv hnm hea hp.1 (hd.mems.get hgs) hsz
    have hjm : jm ≠ .nil := by
      rintro rfl
      simp [JMems.get?, JMems.toList] at hg
    have hcls : ∃ pre, IsWs pre ∧ (JVal.obj w jm).text ++ k = chLBrace :: (pre ++ memRest (w ++ chRBrace :: k) jm) := by
      match jm, hjm with
      | .nil, h => exact absurd rfl h
      | .cons pre .., h =>
        have := hd.mems.wf
        simp only [JMems.WFt] at this
        exact ⟨pre, this.1, by rw [obj_text, objRest_memRest h]⟩
    obtain ⟨pre0, hpre0, hcls⟩ := hcls
    have hwf := hd.wf
    simp only [JVal.WFt] at hwf
    have hK0 : AfterValue (w ++ chRBrace :: k) := by
      have := isTail_after (k := k) (Or.inr rfl : chRBrace = chRBrack ∨ chRBrace = chRBrace) (by simp [IsWs] : IsWs []) hwf.1
      simpa using this
    have hnp : (∀ b, d ≠ .str b) ∧ (∀ b, d ≠ .num b) ∧ d.ends (.arr vs) = true := by
      cases h with
      | arr => exact ⟨by simp, by simp, rfl⟩
    refine ⟨max f0 f1 + 1, fun f hf => ?_⟩
    obtain ⟨h1, -⟩ := hf0 (f + 1) (by omega)
    have harr : ∀ b, parseU t Δ (f + 1) (.arr elem) b = parseArr t.cfg (parseU t Δ f elem) b := fun b => by simp only [parseU]
    have hsz' : asSizeT n = .int (n % 2 ^ 64) := rfl
    refine ⟨fun K hK hns => ?_, ?_⟩
    · obtain ⟨r, hr, ht⟩ := h1 K (fun hc => by rw [hnp.2.2] at hc; cases hc) hns
      rw [harr] at hr
      exact ⟨r, by simp only [depHere, hcls, hf1 f (by omega) jm pre0 _ hd.mems hpl hgs hpre0 hK0, Res.ok_bind, hr, hsz'], ht⟩
    · rcases hp.2 with hp' | hp'
      · exact Or.inl hp'
      · refine Or.inr fun r a hst hat => ?_
        obtain ⟨U, pre, pc, qc, post, tl, hU, rfl⟩ := at_get hat hone hg hnp.1
        subst hU
        have hsU : size.name ∈ U.names := Before.front hp'
        have hUne : U ≠ .nil := by
          rintro rfl
          simp [JMems.names, JMems.toList] at hsU
        obtain ⟨p1, hp1, heq⟩ := obj_upto (tc := tc) (w := w) (k := k) (U := U) (pre := pre) (n := m.name) (pc := pc) (qc := qc) (d := d)
          (post := post) (tl := tl) hUne
        have hrs := hf1 f (by omega) U p1 (chComma :: (pre ++ (chQuote :: (m.name ++ (chQuote :: (pc ++ (chColon :: (qc ++ d.text))))))))
          hd.mems.front (fun n hn => hpl n (by rw [names_app]; exact List.mem_append_left _ hn)) (before_get hsU ▸ hgs)
          (hp1 hd.mems.front.wf) ⟨[], _, by simp [IsWs], rfl, Or.inr ⟨chComma, _, rfl, Or.inl rfl⟩⟩
        obtain ⟨r', hr'⟩ := (h1 : SemU _ _ _ _).seen (cfg := t.cfg) hnp.2.2 hnp.1 hst
        rw [harr] at hr'
        have htake : ∀ P Q : Bytes, (P ++ Q).take ((P ++ Q).length - Q.length) = P := fun P Q => by
          rw [List.length_append, Nat.add_sub_cancel, List.take_left']; rfl
        simp only [depKnown, hck, if_true, inside_stored t hst hnp.1 hnp.2.1, heq, htake, hrs, Res.ok_bind, sizeFits, hr', hsz']
  | @pairs i key x ex _ v hi h =>
    cases h with
    | @arr _ w' es vs he h =>
      obtain ⟨f0, hf0⟩ := parsePairs_sem hck henv hnm hea hi hdd (fun h0 => hp w' (h0 ▸ hg)) h
      refine ⟨f0, fun f hf => ⟨fun K hK hns => ?_, Or.inr fun r a hst _ => ?_⟩⟩
      · simpa only [depHere] using hf0 f hf K hK hns
      · obtain ⟨r', hr'⟩ := (hf0 f hf).seen rfl (by simp) hst
        simp only [depKnown, inside_stored t hst (by simp) (by simp), hr', Res.ok_bind]

/-- All members. -/
theorem deps_sem {w k : Bytes} {jm : JMems} (hd : DOk tc (.obj w jm)) (hpl : ∀ n ∈ jm.names, PlainName n ∨ t.escNames = true)
    {N : List Bytes} (all : List DMember) (hone : ∀ m ∈ all, jm.names.count m.name ≤ 1)
    (allv : List Val)
    (hp : ∀ (p : Nat) m v, all[p]? = some m → allv[p]? = some v → m.name ∈ jm.names → PlaceOk jm N p m v) :
    ∀ {ms : List DMember} {vs : List Val}, ReadsDeps Δ nm ea jm ms vs → ∀ pos, all.drop pos = ms → allv.drop pos = vs →
      ∃ f0, ∀ f, f0 ≤ f → MemsAt t.cfg.checked (depU t Δ f ((JVal.obj w jm).text ++ k) all) (depK t Δ f ((JVal.obj w jm).text ++ k) all)
        jm w k N pos (encMembers pos ms) vs
  | _, _, .nil, pos, _, _ => ⟨0, fun _ _ => trivial⟩
  | _, _, @ReadsDeps.found _ _ _ _ m ms d v vs hg hne h hr, pos, hdr, hdv => by
    have hpos : all[pos]? = some m := by
      have := congrArg (·[0]?) hdr
      simpa [List.getElem?_drop] using this
    obtain ⟨f0, hf0⟩ := deps_sem hd hpl all hone allv hp hr (pos + 1) (by rw [← List.drop_drop, hdr]; rfl) (by rw [← List.drop_drop, hdv]; rfl)
    obtain ⟨f1, hf1⟩ := dep_sem (k := k) hck henv hnm hea hd hpl (hone m (List.mem_of_getElem? hpos)) hg hne h
      (placeOk_some (b := m.opt) (hp pos m _ hpos (by
        have := congrArg (·[0]?) hdv
        simpa only [List.getElem?_drop, Nat.add_zero, List.getElem?_cons_zero] using this) (mem_names_iff.2 ⟨d, hg⟩)))
    have hdd := hd.mems.get hg
    refine ⟨max f0 f1, fun f hf => ⟨Or.inl ⟨d, hg, ?_⟩, hf0 f (by omega)⟩⟩
    obtain ⟨h1, h2⟩ := hf1 f (by omega)
    cases ho : m.opt with
    | false =>
      simp only [Bool.false_eq_true, if_false, depU_ref t Δ f _ hpos, depK_ref t Δ f _ hpos]
      exact ⟨h1, h2, fun h => absurd h hne⟩
    | true =>
      simp only [if_true]
      refine ⟨fun K hK hns => ?_, h2.imp id fun h2 r a hst hat => ?_, fun h => absurd h hne⟩
      · obtain ⟨r, hr, ht⟩ := h1 K (fun hc => ⟨(hK hc).1, fun h0 => (hK hc).2 h0⟩) hns
        exact ⟨r, by simp only [depU, hpos, eatNull_value hdd.wf hne, Res.ok_bind, hr], ht⟩
      · simp only [depK, hpos, hst.2.2.1, Bool.false_eq_true, if_false, h2 r a hst hat, Res.ok_bind]
  | _, _, @ReadsDeps.null _ _ _ _ m ms vs ho hg hr, pos, hdr, hdv => by
    have hpos : all[pos]? = some m := by
      have := congrArg (·[0]?) hdr
      simpa [List.getElem?_drop] using this
    obtain ⟨f0, hf0⟩ := deps_sem hd hpl all hone allv hp hr (pos + 1) (by rw [← List.drop_drop, hdr]; rfl) (by rw [← List.drop_drop, hdv]; rfl)
    refine ⟨f0, fun f hf => ⟨Or.inl ⟨.null, hg, ?_⟩, hf0 f (by omega)⟩⟩
    simp only [ho, if_true]
    refine ⟨fun K hK hns => ?_, Or.inr fun r a hst => absurd rfl hst.1, fun _ => ⟨rfl, trivial⟩⟩
    obtain ⟨r, hr, ht⟩ := eatNull_null hck (hK rfl).1
    exact ⟨r, by simp only [depU, hpos, hr, Res.ok_bind], ht⟩
  | _, _, @ReadsDeps.absent _ _ _ _ m ms vs ho hg hr, pos, hdr, hdv => by
    obtain ⟨f0, hf0⟩ := deps_sem hd hpl all hone allv hp hr (pos + 1) (by rw [← List.drop_drop, hdr]; rfl) (by rw [← List.drop_drop, hdv]; rfl)
    refine ⟨f0, fun f hf => ⟨Or.inr ⟨hg, ?_, rfl⟩, hf0 f (by omega)⟩⟩
    simp only [ho, if_true]
    rfl

/-- `from_json` on a class some of whose members depend on others, followed by the text `k`. -/
theorem fromJsonDep_reads {ms : List DMember} {ex : Bool} {w : Bytes} {jm : JMems} {vs : List Val}
    (hnd : (ms.map DMember.name).Nodup) (hd : DOk tc (.obj w jm)) (h : ReadsClass Δ nm ea ex jm ms vs)
    (hp : ∀ (p : Nat) m v, ms[p]? = some m → vs[p]? = some v → m.name ∈ jm.names → PlaceOk jm (ms.map DMember.name) p m v) (k : Bytes) :
    ∃ f0, ∀ f, f0 ≤ f → fromJsonDep t Δ f ms ex ((JVal.obj w jm).text ++ k) =
      if t.verifyEnd = true ∧ trimChecked (dropNul k) ≠ [] then .err .invalidEndOfValue else .ok (.cls vs) := by
  have hpl : ∀ n ∈ jm.names, PlainName n ∨ t.escNames = true := fun n hn => (hnm _ n (h.names n hn)).2
  obtain ⟨f0, hf0⟩ := deps_sem (k := dropNul k) hck henv hnm hea hd hpl ms h.once vs hp h.mems 0 rfl rfl
  refine ⟨f0, fun f hf => ?_⟩
  have hmem : ∀ {P : Bytes → Prop}, (∀ m ∈ ms, P m.name) → ∀ m ∈ encMembers 0 ms, P m.name := by
    intro P hP m hm
    have : m.name ∈ (encMembers 0 ms).map Member.name := List.mem_map_of_mem hm
    rw [enc_names] at this
    obtain ⟨m', hm', he⟩ := List.mem_map.1 this
    exact he ▸ hP m' hm'
  obtain ⟨r, hr, htr⟩ := parseObj_at (t := t) (exact := ex || t.exactAll) (ms := encMembers 0 ms) hck (by rw [enc_names]; exact hnd)
    hd.wf hd.mems.depth hd.size (fun n hn => by rw [enc_names]; exact hnm _ n (h.names n hn)) (hmem (P := fun n => jm.names.count n ≤ 1) h.once)
    (fun he n hn => by
      obtain ⟨m, hm, rfl⟩ := h.exact (hea ▸ he) n hn
      have : m.name ∈ (encMembers 0 ms).map Member.name := by rw [enc_names]; exact List.mem_map_of_mem hm
      obtain ⟨m', hm', he⟩ := List.mem_map.1 this
      exact ⟨m', hm', he⟩) (dropNul k) (by rw [enc_names]; exact hf0 f hf)
  unfold fromJsonDep
  have he : ((JVal.obj w jm).text ++ k).isEmpty = false := text_ne_empty hd.wf k
  have he' : ((JVal.obj w jm).text ++ dropNul k).isEmpty = false := text_ne_empty hd.wf _
  have hn : (if ((JVal.obj w jm).text ++ k).getLast? = some 0 then ((JVal.obj w jm).text ++ k).dropLast else (JVal.obj w jm).text ++ k) =
      (JVal.obj w jm).text ++ dropNul k := dropNul_append hd.wf k
  simp only [he, Bool.not_false, ensure_true, Res.ok_bind, hn, parseDep, he', assertWeak_tt, trim_ck hck, trimChecked_text _ hd.wf, hr,
    trimChecked_idem, trimChecked_trimEq htr]
  cases t.verifyEnd with
  | false => simp
  | true =>
    cases trimChecked (dropNul k) <;> simp [ensure]

/-- What an accepted object gives for a tagged variant. -/
theorem fromJsonDep_tagged {ms : List DMember} {ex : Bool} {w : Bytes} {jm : JMems} (hd : DOk tc (.obj w jm)) {p : Nat} {m : DMember}
    {tag : Member} {sw : Val → Nat} {wr : List Val → Val} {alts : List Ty} {x : Val} (hm : ms[p]? = some m)
    (hty : m.ty = .tagged tag sw wr alts) (hn : ∀ n ∈ jm.names, nm [tag.name] n) (honce : jm.names.count tag.name ≤ 1)
    (hex : ea = true → ∀ n ∈ jm.names, n = tag.name) (hx : ReadsMembers Δ nm ea [tag] jm [x]) (k : Bytes) :
    ∃ f0, ∀ f, f0 ≤ f → ∀ v, fromJsonDep t Δ f ms ex ((JVal.obj w jm).text ++ k) = .ok v →
      ∃ vs y, v = .cls vs ∧ vs[p]? = some y ∧ ((m.opt = true ∧ y = .none) ∨
        ∃ z, sw x < alts.length ∧ y = if m.opt then .some (.alt (sw x) z) else .alt (sw x) z) := by
  obtain ⟨f0, hf0⟩ := readTag_sem hck henv hnm hea hd hn honce hex hx
  refine ⟨f0, fun f hf v hv => ?_⟩
  have htag := hf0 f hf (dropNul k)
  have halt : ∀ a, altOfTag t.cfg sw alts (.cls [x]) = .ok a → a.1 = sw x ∧ sw x < alts.length := by
    intro a ha
    unfold altOfTag at ha
    cases hg : alts[sw x]? with
    | none => simp [hg, hck] at ha
    | some ty =>
      simp only [hg, Res.ok.injEq] at ha
      exact ⟨by rw [← ha], (List.getElem?_eq_some_iff.1 hg).1⟩
  have hhere : ∀ b y r, depHere t Δ f ((JVal.obj w jm).text ++ dropNul k) m.ty b = .ok (y, r) →
      ∃ z, sw x < alts.length ∧ y = .alt (sw x) z := by
    intro b y r h
    simp only [hty, depHere, htag, Res.ok_bind] at h
    obtain ⟨a, ha, h⟩ := Res.bind_eq_ok.1 h
    obtain ⟨⟨z, r'⟩, -, h⟩ := Res.bind_eq_ok.1 h
    simp only [Res.ok.injEq, Prod.mk.injEq] at h
    obtain ⟨h1, h2⟩ := halt a ha
    exact ⟨z, h2, by rw [← h.1, h1]⟩
  have hknown : ∀ r a y, depKnown t Δ f ((JVal.obj w jm).text ++ dropNul k) m.ty r a = .ok y → ∃ z, sw x < alts.length ∧ y = .alt (sw x) z := by
    intro r a y h
    simp only [hty, depKnown] at h
    split at h
    · unfold lostClass at h
      split at h <;> cases h
    · simp only [htag, Res.ok_bind] at h
      obtain ⟨a, ha, h⟩ := Res.bind_eq_ok.1 h
      obtain ⟨⟨z, r'⟩, -, h⟩ := Res.bind_eq_ok.1 h
      simp only [Res.ok.injEq] at h
      obtain ⟨h1, h2⟩ := halt a ha
      exact ⟨z, h2, by rw [← h, h1]⟩
  unfold fromJsonDep at hv
  have he : ((JVal.obj w jm).text ++ k).isEmpty = false := text_ne_empty hd.wf k
  have he' : ((JVal.obj w jm).text ++ dropNul k).isEmpty = false := text_ne_empty hd.wf _
  have hnul : (if ((JVal.obj w jm).text ++ k).getLast? = some 0 then ((JVal.obj w jm).text ++ k).dropLast else (JVal.obj w jm).text ++ k) =
      (JVal.obj w jm).text ++ dropNul k := dropNul_append hd.wf k
  simp only [he, Bool.not_false, ensure_true, Res.ok_bind, hnul, parseDep, he', assertWeak_tt, trim_ck hck, trimChecked_text _ hd.wf] at hv
  obtain ⟨⟨v', r⟩, hp, hv⟩ := Res.bind_eq_ok.1 hv
  obtain ⟨⟨v'', r'⟩, hpo, hq⟩ := Res.bind_eq_ok.1 hp
  simp only [Res.ok.injEq, Prod.mk.injEq] at hq
  obtain ⟨rfl, -⟩ := hq
  have hvv : v'' = v := by
    cases h0 : t.verifyEnd with
    | false => simpa [h0] using hv
    | true =>
      simp only [h0, if_true] at hv
      obtain ⟨-, -, hv⟩ := Res.bind_eq_ok.1 hv
      simpa using hv
  subst hvv
  obtain ⟨vs, rfl, hlen, hall⟩ := parseObj_from hpo
  have hpm : (encMembers 0 ms)[p]? = some ⟨m.name, if m.opt then .opt (.ref p) else .ref p⟩ := by
    have key : ∀ (l : List DMember) (j q : Nat), l[q]? = some m →
        (encMembers j l)[q]? = some ⟨m.name, if m.opt then .opt (.ref (j + q)) else .ref (j + q)⟩ := by
      intro l
      induction l with
      | nil => intro j q h; simp at h
      | cons a l ih =>
        intro j q h
        match q with
        | 0 =>
          simp only [List.getElem?_cons_zero, Option.some.injEq] at h
          simp [encMembers, h]
        | q + 1 =>
          have := ih (j + 1) q (by simpa using h)
          simp only [encMembers, List.getElem?_cons_succ, this]
          rw [Nat.add_assoc, Nat.add_comm 1 q]
    simpa using key ms 0 p hm
  have hlt : p < vs.length := by
    rw [hlen]
    exact (List.getElem?_eq_some_iff.1 hpm).1
  refine ⟨vs, vs[p], rfl, List.getElem?_eq_getElem hlt, ?_⟩
  have := hall p _ vs[p] hpm (List.getElem?_eq_getElem hlt)
  generalize vs[p] = y at this
  cases ho : m.opt with
  | false =>
    simp only [ho, Bool.false_eq_true, if_false, depU, depK, hm, Ty.isOpt] at this
    refine Or.inr ?_
    simp only [Bool.false_eq_true, if_false]
    rcases this with ⟨b, r, h⟩ | ⟨r, a, h⟩ | ⟨h, -⟩
    · exact hhere b y r h
    · exact hknown r a y h
    · cases h
  | true =>
    simp only [ho, if_true, depU, depK, hm] at this
    simp only [if_true, true_and]
    rcases this with ⟨b, r, h⟩ | ⟨r, a, h⟩ | ⟨-, h⟩
    · obtain ⟨o, -, h⟩ := Res.bind_eq_ok.1 h
      cases o with
      | some r =>
        simp only [Res.ok.injEq, Prod.mk.injEq] at h
        exact Or.inl h.1.symm
      | none =>
        obtain ⟨⟨z, r'⟩, hz, h⟩ := Res.bind_eq_ok.1 h
        simp only [Res.ok.injEq, Prod.mk.injEq] at h
        obtain ⟨q, h1, rfl⟩ := hhere b z r' hz
        exact Or.inr ⟨q, h1, h.1.symm⟩
    · split at h
      · simp only [Res.ok.injEq] at h
        exact Or.inl h.symm
      · obtain ⟨z, hz, h⟩ := Res.bind_eq_ok.1 h
        simp only [Res.ok.injEq] at h
        obtain ⟨q, h1, rfl⟩ := hknown r a z hz
        exact Or.inr ⟨q, h1, h.symm⟩
    · exact Or.inl h

end

end Verif
