import Verif.Proof.DepClass

/-!
# Members that depend on another member: the parsers compute the meaning of the document
-/

namespace Verif

open Spec

/-! ## The size member -/

/-- The text from the first of the members on, `K` following the last. -/
def memRest (K : Bytes) : JMems → Bytes
  | .nil => K
  | .cons _ n pc qc v post tl => chQuote :: (n ++ chQuote :: (pc ++ chColon :: (qc ++ (v.text ++ (post ++ (tl.text ++ K))))))

theorem moveNext_memRest {tc : Bool} {post K : Bytes} {tl : JMems} (hp : IsWs post) (ht : tl.WFt tc) (hne : tl ≠ .nil) :
    moveNextChecked (post ++ (tl.text ++ K)) = memRest K tl := by
  match tl with
  | .nil => exact absurd rfl hne
  | .cons pre n pc qc v post' tl' =>
    simp only [JMems.WFt] at ht
    unfold moveNextChecked
    simp only [JMems.text, List.cons_append, List.append_assoc]
    rw [trimChecked_ws _ _ hp, trimChecked_cons_of_not _ (by decide)]
    simp only [if_true]
    rw [trimChecked_ws _ _ ht.1, trimChecked_cons_of_not _ (by decide)]
    rfl

theorem memRest_after {post K : Bytes} {tl : JMems} (hp : IsWs post) (hK : AfterValue K) : AfterValue (post ++ (tl.text ++ K)) := by
  match tl with
  | .nil =>
    obtain ⟨w, u, hw, rfl, hu⟩ := hK
    exact ⟨post ++ w, u, fun c hc => (List.mem_append.1 hc).elim (hp c) (hw c), by simp [JMems.text], hu⟩
  | .cons .. => exact ⟨post, _, hp, rfl, Or.inr ⟨0x2C, _, rfl, Or.inl rfl⟩⟩

theorem memRest_nonsp {post K : Bytes} {tl : JMems} (hp : IsWs post) (hne : tl ≠ .nil) : Nonsp (post ++ (tl.text ++ K)) := by
  match tl with
  | .nil => exact absurd rfl hne
  | .cons .. =>
    unfold Nonsp
    simp only [JMems.text, List.cons_append, List.append_assoc]
    rw [trimChecked_ws _ _ hp, trimChecked_cons_of_not _ (by decide)]
    simp

variable {t : TCfg} {tc : Bool}

/-- The loop over the members finds a member, whatever follows the members. -/
theorem pathMembers_found (hck : t.cfg.checked = true) {n K : Bytes} (hn : chBslash ∉ n) (hK : AfterValue K) :
    ∀ (ms : JMems) (e : JVal), MOk tc ms → (∀ m ∈ ms.names, PlainName m ∨ t.escNames = true) → ms.get? n = some e →
      ∃ k', pathMembers t (escName n) (memRest K ms) = .ok (some (e.text ++ k')) ∧ AfterValue k'
  | .nil, _, _, _, h => by simp [JMems.get?, JMems.toList] at h
  | .cons pre m pc qc d post tl, e, he, hN, hg => by
    obtain ⟨hd, htl, hl⟩ := he.cons
    have hwf := he.wf
    simp only [JMems.WFt] at hwf
    have haf := memRest_after (tl := tl) hwf.2.2.2.2.2.1 hK
    have hpn := parseName_ck (t := t) (k := post ++ (tl.text ++ K)) hwf.2.1 hl (hN m (by simp [JMems_names_cons])) hwf.2.2.1
      hwf.2.2.2.1 hd.wf
    have hE : memRest K (.cons pre m pc qc d post tl) =
        0x22 :: (m ++ 0x22 :: (pc ++ 0x3A :: (qc ++ (d.text ++ (post ++ (tl.text ++ K)))))) := rfl
    rw [JMems_get?_cons] at hg
    rw [hE]
    by_cases hm : n = m
    · subst hm
      simp only [if_true, Option.some.injEq] at hg
      subst hg
      refine ⟨post ++ (tl.text ++ K), ?_, haf⟩
      unfold pathMembers
      simp [hpn, pathCompare_name hn]
    · have hmb : (m == n) = false := by simpa using fun h => hm h.symm
      rw [if_neg hm] at hg
      have hne : tl ≠ .nil := by
        rintro rfl
        simp [JMems.get?, JMems.toList] at hg
      obtain ⟨r, b, hs, hb, -⟩ := skipValue_stored (cfg := t.cfg) hd.wf hd.depth hd.size haf (memRest_nonsp hwf.2.2.2.2.2.1 hne)
      have hrun : pathMembers t (escName n) (0x22 :: (m ++ 0x22 :: (pc ++ 0x3A :: (qc ++ (d.text ++ (post ++ (tl.text ++ K))))))) =
          pathMembers t (escName n) (memRest K tl) := by
        conv => lhs; unfold pathMembers
        simp only [hpn, Res.ok_bind, pathCompare_name hn, hmb, Bool.false_eq_true, if_false, hs, moveNext_ck hck]
        rw [moveNextChecked_trimEq hb, moveNext_memRest hwf.2.2.2.2.2.1 hwf.2.2.2.2.2.2 hne]
        have hlen : (memRest K tl).length < (0x22 :: (m ++ 0x22 :: (pc ++ 0x3A :: (qc ++ (d.text ++ (post ++ (tl.text ++ K))))))).length := by
          have h1 := text_length_pos hd.wf
          have h2 : (memRest K tl).length ≤ (tl.text ++ K).length := by
            match tl with
            | .nil => simp [memRest, JMems.text]
            | .cons .. => simp only [memRest, JMems.text, List.length_cons, List.length_append]; omega
          simp only [List.length_append, List.length_cons] at h2 ⊢
          omega
        have hq : headIs (· == chQuote) (memRest K tl) = true := by
          match tl, hne with
          | .nil, hne => exact absurd rfl hne
          | .cons .., _ => rfl
        simp only [dif_pos hlen, hq, Bool.true_eq_false, if_false]
      rw [hrun]
      exact pathMembers_found hck hn hK tl e htl (fun x hx => hN x (by simp [JMems_names_cons, hx])) hg

theorem escName_oneStep {n : Bytes} (h : OneStep n) : escName n = n := by
  have : ∀ l : Bytes, (∀ c ∈ l, c ≠ 0x2E ∧ c ≠ 0x5B ∧ c ≠ 0x5D ∧ c ≠ 0x5C) → escName l = l := by
    intro l
    induction l with
    | nil => intro _; rfl
    | cons c cs ih =>
      intro hl
      have := hl c (by simp)
      rw [escName_cons, if_neg (by simp [this]), ih (fun x hx => hl x (by simp [hx]))]
      rfl
  exact this n h.2

theorem oneStep_bslash {n : Bytes} (h : OneStep n) : chBslash ∉ n := fun hc => (h.2 _ hc).2.2.2 rfl

/-- A member is found by its name, whatever follows the members. -/
theorem findRange_found (hck : t.cfg.checked = true) {n K : Bytes} (hn : OneStep n) (hK : AfterValue K) {pre : Bytes} (hpre : IsWs pre)
    {ms : JMems} {e : JVal} (hms : MOk tc ms) (hN : ∀ m ∈ ms.names, PlainName m ∨ t.escNames = true) (hg : ms.get? n = some e) :
    ∃ k', findRange t n (chLBrace :: (pre ++ memRest K ms)) = .ok (some (e.text ++ k')) ∧ AfterValue k' := by
  obtain ⟨k', h1, h2⟩ := pathMembers_found hck (oneStep_bslash hn) hK ms e hms hN hg
  refine ⟨k', ?_, h2⟩
  have hq : trimUnchecked (pre ++ memRest K ms) = .ok (memRest K ms) := by
    rw [trimUnchecked_ws _ _ hpre]
    match ms, hg with
    | .nil, hg => simp [JMems.get?, JMems.toList] at hg
    | .cons .., _ => exact trimUnchecked_cons_of_not _ (by decide)
  have ht : trimChecked (chLBrace :: (pre ++ memRest K ms)) = chLBrace :: (pre ++ memRest K ms) :=
    trimChecked_cons_of_not _ (by decide)
  unfold findRange
  rw [ht, if_neg (by simp [hn.1])]
  have hr : n = restText [.name n] := by simp [restText, pathTail, escName_oneStep hn]
  conv => lhs; rw [hr]
  rw [findRange2_cons (s := .name n) ⟨hn.1, oneStep_bslash hn⟩]
  have hps : pathStep t (seg (.name n) (pathTail [])).1 (seg (.name n) (pathTail [])).2 (chLBrace :: (pre ++ memRest K ms)) =
      .ok (some (e.text ++ k')) := by
    unfold pathStep
    rw [if_neg (by simp [seg, pathTail])]
    simp [whenChecked, hck, ensure, headIs, hq, h1, seg]
  rw [hps]
  exact findRange2_nil _

/-! ## Texts of objects -/

theorem text_app (a b : JMems) : (a.app b).text = a.text ++ b.text := by
  match a with
  | .nil => rfl
  | .cons .. => simp only [JMems.app, JMems.text, List.cons_append, List.append_assoc, text_app]

theorem wf_app {a b : JMems} : (a.app b).WFt tc ↔ a.WFt tc ∧ b.WFt tc := by
  match a with
  | .nil => simp [JMems.app, JMems.WFt]
  | .cons .. => simp only [JMems.app, JMems.WFt, wf_app, and_assoc]

theorem MOk.front {a b : JMems} (h : MOk tc (a.app b)) : MOk tc a := by
  match a with
  | .nil => exact ⟨trivial, by simp [JMems.depth], by simp [JMems.text]⟩
  | .cons pre n pc qc d post tl =>
    have h2 := (MOk.front (a := tl) (b := b) h.cons.2.1)
    refine ⟨(wf_app.1 h.wf).1, ?_, ?_⟩
    · have := h.cons.1
      have h3 := h.depth
      have h4 := h2.depth
      simp only [JMems.app, JMems.depth] at h3 ⊢
      omega
    · have := h.size
      rw [text_app, List.length_append] at this
      omega

theorem objRest_memRest {w k : Bytes} {ms : JMems} (h : ms ≠ .nil) : objRest w k ms = memRest (w ++ chRBrace :: k) ms := by
  match ms with
  | .nil => exact absurd rfl h
  | .cons .. => rfl

/-- The object in front of what follows the value of one of its members. -/
theorem obj_upto {w k : Bytes} {U : JMems} {pre n pc qc post : Bytes} {d : JVal} {tl : JMems} (hU : U ≠ .nil) :
    ∃ p0, (U.WFt tc → IsWs p0) ∧ (JVal.obj w (U.app (.cons pre n pc qc d post tl))).text ++ k =
      (chLBrace :: (p0 ++ memRest (chComma :: (pre ++ (chQuote :: (n ++ (chQuote :: (pc ++ (chColon :: (qc ++ d.text)))))))) U)) ++
        objAfter post tl w k := by
  match U with
  | .nil => exact absurd rfl hU
  | .cons pre' n' pc' qc' d' post' tl' =>
    refine ⟨pre', fun h => by simp only [JMems.WFt] at h; exact h.1, ?_⟩
    simp only [JMems.app]
    rw [obj_text]
    simp [objRest, objAfter, memRest, text_app, JMems.text]

/-! ## The parts -/

section
variable {Δ : Env} {nm : List Bytes → Bytes → Prop} {ea : Bool} (hck : t.cfg.checked = true) (henv : EnvOk Δ)
  (hnm : ∀ N n, nm N n → NameOk t N n ∧ (PlainName n ∨ t.escNames = true)) (hea : ea = t.exactAll)
include hck henv hnm hea

/-- The tag is read from the whole object. -/
theorem readTag_sem {tag : Member} {x : Val} {w : Bytes} {jm : JMems} (hd : DOk tc (.obj w jm))
    (hpl : ∀ n ∈ jm.names, nm [tag.name] n) (honce : jm.names.count tag.name ≤ 1) (hex : ea = true → ∀ n ∈ jm.names, n = tag.name)
    (hx : ReadsMembers Δ nm ea [tag] jm [x]) :
    ∃ f0, ∀ f, f0 ≤ f → ∀ k, readTag t Δ f tag ((JVal.obj w jm).text ++ k) = .ok (.cls [x]) := by
  obtain ⟨f0, hf0⟩ := members_sem hck henv hnm hea hx hd.mems
  refine ⟨f0, fun f hf k => ?_⟩
  have hs := parseObj_sem (t := t) (exact := t.exactAll) (ms := [tag]) (by simp) hd.wf hd.mems.depth hd.size
    (fun n hn => hnm _ n (hpl n hn)) (by simpa using honce)
    (fun he n hn => ⟨tag, by simp, (hex (hea.trans he) n hn).symm⟩) (hf0 f hf)
  obtain ⟨r, hr, -⟩ := hs k (by simp [JVal.ends, JVal.closed, Val.bareLit]) (by simp [hck])
  have hh : headIs (· == chLBrace) ((JVal.obj w jm).text ++ k) = true := by
    cases jm <;> simp [JVal.text, headIs]
  simp only [readTag, hh, assertWeak_tt, Res.ok_bind, hr]

/-- The size is read from the members in front of `K`. -/
theorem readSize_sem {size : Member} {dn : JVal} {n : Int} (hn : OneStep size.name) (hdn : DOk tc dn)
    (h : Reads Δ nm ea size.ty dn (.int n)) :
    ∃ f0, ∀ f, f0 ≤ f → ∀ (ms : JMems) (pre K : Bytes), MOk tc ms → (∀ m ∈ ms.names, PlainName m ∨ t.escNames = true) →
      ms.get? size.name = some dn → IsWs pre → AfterValue K → readSize t Δ f size (chLBrace :: (pre ++ memRest K ms)) = .ok n := by
  obtain ⟨f0, hf0⟩ := reads_sem hck henv hnm hea h hdn
  refine ⟨f0, fun f hf ms pre K hms hN hg hpre hK => ?_⟩
  obtain ⟨k', h1, h2⟩ := findRange_found hck hn hK hpre hms hN hg
  obtain ⟨r, hr, -⟩ := (hf0 f hf).1 k' (fun _ => ⟨h2, fun _ => endsWell_of rfl⟩) (by simp [hck])
  simp only [readSize, h1, Res.ok_bind, hr]

omit henv hnm hea in
/-- A class is read in front of whitespace too. -/
theorem parseU_ws {i : Nat} {ms : List Member} {ex : Bool} (hi : Δ i = .obj ms ex) {u x : Bytes} (hu : IsWs u) (hx : x ≠ []) (f : Nat) :
    parseU t Δ f (.ref i) (u ++ x) = parseU t Δ f (.ref i) x := by
  cases f with
  | zero => rfl
  | succ f =>
    have h1 : (u ++ x).isEmpty = false := by simp [hx]
    have h2 : x.isEmpty = false := by simp [hx]
    simp only [parseU, hi, h1, h2, parseObj, trim_ck hck, trimChecked_ws _ _ hu]

omit henv hnm hea in
theorem arrLoop_ws {p : Bytes → Res (Val × Bytes)} {u x : Bytes} {r : List Val × Bytes} (hp : p (u ++ x) = p x) (hx : x ≠ [])
    (h : arrLoop t.cfg p x = .ok r) : arrLoop t.cfg p (u ++ x) = .ok r := by
  have h1 : (u ++ x).isEmpty = false := by simp [hx]
  have h2 : x.isEmpty = false := by simp [hx]
  rw [arrLoop] at h ⊢
  rw [hp, h1]
  rw [h2] at h
  simp only [Bool.not_false, assertWeak_tt, Res.ok_bind] at h ⊢
  cases hpx : p x with
  | err e => rw [hpx] at h; simp at h
  | ub => rw [hpx] at h; simp at h
  | ok q =>
    obtain ⟨v, b⟩ := q
    rw [hpx] at h
    simp only [Res.ok_bind, trim_ck hck, moveNext_ck hck, assertWeak, hck, if_true] at h ⊢
    revert h
    cases hb : headIs (fun c => c == chComma || c == chRBrack) (trimChecked b) with
    | false => simp [ensure]
    | true =>
      simp only [ensure_true, Res.ok_bind]
      cases hm : moveNextChecked (trimChecked b) with
      | nil => simp [ensure]
      | cons c cs =>
        simp only [List.isEmpty_cons, Bool.not_false, ensure_true, Res.ok_bind, deref_cons]
        split
        · exact id
        · intro h
          split at h
          · rename_i hl
            rw [dif_pos (by rw [List.length_append]; omega)]
            exact h
          · simp at h

/-- An array of pairs. -/
theorem parsePairs_sem {i : Nat} {k x : Member} {ex : Bool} (hi : Δ i = .obj [k, x] ex) {w : Bytes} {es : JElems} {vs : List Val}
    (hd : DOk tc (.arr w es)) (he : es = .nil → w = []) (h : ReadsElems Δ nm ea (.ref i) es vs) :
    ∃ f0, ∀ f, f0 ≤ f → SemU t.cfg.checked (parsePairs t.cfg (parseU t Δ f (.ref i))) (.arr w es) (.arr vs) := by
  obtain ⟨f0, hf0⟩ := elems_semM (Or.inl hck) henv hnm hea h hd.elems (Or.inl hck)
  refine ⟨f0, fun f hf K _ _ => ?_⟩
  have hs := hf0 f hf
  have hwf := hd.wf
  simp only [JVal.WFt] at hwf
  unfold parsePairs
  match es, vs, hs with
  | .nil, [], _ =>
    obtain rfl := he rfl
    simp only [JVal.text, List.nil_append, List.cons_append, List.tail_cons, headIs, beq_self_eq_true, assertWeak_tt, Res.ok_bind,
      derefEnd_cons, if_true]
    exact ⟨_, rfl, trimChecked_te (TrimEq.refl K)⟩
  | .cons pre d post tl, v :: vs, hs =>
    have htl := hwf.2
    simp only [JElems.WFt] at htl
    rw [arr_text]
    obtain ⟨c, cs, hc, hsp, htok, -⟩ := text_head d htl.2.1
    obtain ⟨r, hr, ht⟩ := arrLoop_sem (cfg := t.cfg) hwf.1 (k := K) tl pre d post v vs hwf.2 hs
    have hne : d.text ++ arrAfter post tl w K ≠ [] := by rw [hc]; simp
    have hr' := arrLoop_ws (t := t) hck (parseU_ws hck hi htl.1 hne f) hne hr
    obtain ⟨y, ys, hy, hyc⟩ : ∃ y ys, pre ++ (d.text ++ arrAfter post tl w K) = y :: ys ∧ y ≠ chRBrack := by
      cases pre with
      | nil =>
        refine ⟨c, cs ++ arrAfter post tl w K, by rw [hc]; rfl, ?_⟩
        rintro rfl
        simp [isTokenAfterValue] at htok
      | cons y ys =>
        refine ⟨y, _, rfl, ?_⟩
        rintro rfl
        have := htl.1 chRBrack (by simp)
        revert this; unfold isWsByte; decide
    have hder : derefEnd t.cfg (pre ++ (d.text ++ arrAfter post tl w K)) = .ok y := by rw [hy]; rfl
    simp only [List.tail_cons, headIs, beq_self_eq_true, assertWeak_tt, Res.ok_bind, hder, if_neg hyc, hr']
    exact ⟨r, rfl, ht⟩
  | .nil, _ :: _, h => simp [ElemsSem] at h
  | .cons .., [], h => simp [ElemsSem] at h

end

end Verif
