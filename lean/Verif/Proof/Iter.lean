import Verif.Model.Iter
import Verif.Spec.Iter
import Verif.Proof.TypedTop

/-!
# Iterators: supporting lemmas
-/

namespace Verif

open Spec

/-- `L` are the elements an iterator at `p` will meet, each with whether it can be passed unparsed. -/
def Chain {α : Type} (k : ItKind) (ops : ElemOps α) : List (α × Bool) → Bytes → Prop
  | [], p => hasElem k p = false
  | (a, sk) :: L, p => hasElem k p = true ∧ ∃ p', Chain k ops L p' ∧
      (∃ r, ops.parse p = .ok (a, r) ∧ moveNextChecked r = p') ∧
      (sk = true → ∃ r, ops.skip p = .ok r ∧ moveNextChecked r = p')

theorem itDerefs_ok {α : Type} {cfg : Cfg} {k : ItKind} {ops : ElemOps α} {p r : Bytes} {a : α} {b : Bool}
    (h : hasElem k p = true) (hp : ops.parse p = .ok (a, r)) (c : Nat) : ∀ s, itDerefs cfg k ops c ⟨p, s, b⟩
      = .ok (List.replicate c a, ⟨p, if c = 0 then s else some r, b⟩) := by
  induction c with
  | zero => intro s; rfl
  | succ c ih =>
    intro s
    have aw : assertWeak cfg.checked true .unexpectedEndOfData = .ok () := by cases cfg.checked <;> rfl
    simp only [itDerefs, itDeref, h, aw, Res.ok_bind, hp, ih]
    congr 2
    by_cases hc : c = 0 <;> simp [hc]

theorem itWalk_chain {α : Type} {cfg : Cfg} (hck : cfg.checked = true) {k : ItKind} {ops : ElemOps α} {b : Bool} :
    (L : List (α × Bool)) → (p : Bytes) → Chain k ops L p → (cs : List Nat) → cs.length ≤ L.length →
    (∀ (i : Nat) (a : α) (sk : Bool), L[i]? = some (a, sk) → cs[i]? = some 0 → sk = true) →
    ∃ p', itWalk cfg k ops cs ⟨p, none, b⟩ = .ok (List.zipWith List.replicate cs (L.map Prod.fst), ⟨p', none, b⟩) ∧
      Chain k ops (L.drop cs.length) p'
  | L, p, h, [], _, _ => ⟨p, by simp [itWalk], by simpa using h⟩
  | [], _, _, _ :: _, hl, _ => by simp at hl
  | (a, sk) :: L, p, h, c :: cs, hl, hs => by
    obtain ⟨h1, p', h2, ⟨r, h3, h4⟩, h5⟩ := h
    have aw : assertWeak cfg.checked true .unexpectedEndOfData = .ok () := by cases cfg.checked <;> rfl
    obtain ⟨p'', h6, h7⟩ := itWalk_chain (b := b) hck L p' h2 cs (by simpa using hl)
      (fun i a sk hi hc => hs (i + 1) a sk (by simpa using hi) (by simpa using hc))
    refine ⟨p'', ?_, by simpa using h7⟩
    have hinc : itInc cfg k ops ⟨p, if c = 0 then none else some r, b⟩ = .ok ⟨p', none, b⟩ := by
      by_cases hc : c = 0
      · subst hc
        obtain ⟨r', h8, h9⟩ := h5 (hs 0 a sk rfl rfl)
        simp [itInc, h1, aw, h8, moveNext_ck hck, h9]
      · simp [itInc, h1, aw, hc, moveNext_ck hck, h4]
    simp only [itWalk, itDerefs_ok h1 h3, Res.ok_bind, hinc, h6]
    rfl

theorem chain_good {α : Type} {k : ItKind} {ops : ElemOps α} {L : List (α × Bool)} {p : Bytes}
    (h : Chain k ops L p) : hasElem k p = decide (0 < L.length) := by
  match L, h with
  | [], h => simpa [Chain] using h
  | (a, sk) :: L, h => simpa using h.1

/-! ## Skipping an element of known type -/

theorem skipKnown_text {cfg : Cfg} (hck : cfg.checked = true) {Δ : Env} {nm : List Bytes → Bytes → Prop} {ea : Bool} {ty : Ty}
    {d : JVal} {v : Val} (h : Reads Δ nm ea ty d v) (hd : DOk false d) (hp : Passable Δ ty d) {k : Bytes}
    (hk : ∀ t, d = .num t → NumEnd k) : skipKnown cfg Δ ty (d.text ++ k) = .ok k := by
  have aw : ∀ e, assertWeak cfg.checked true e = .ok () := by intro e; cases cfg.checked <;> rfl
  have hlit : d.isLiteral = false := by
    cases h with
    | tru => exact hp.elim
    | fls => exact hp.elim
    | null => obtain ⟨t, h⟩ := hp; simp at h
    | some => obtain ⟨t, rfl⟩ := hp; rfl
    | var hi _ hne _ =>
      obtain ⟨h1, h2⟩ := hp.2 _ hi
      cases d <;> first | rfl | contradiction
    | txt h =>
      cases h with
      | customLit => obtain ⟨b, rfl⟩ := hp; rfl
      | quoted => obtain ⟨b, h⟩ := hp; cases h
      | bare => obtain ⟨b, rfl⟩ := hp; rfl
      | raw hne =>
        obtain ⟨h1, h2⟩ := hp
        cases d <;> first | rfl | contradiction
      | _ => rfl
    | _ => rfl
  obtain ⟨r, h1, -, -, -⟩ := skipValue_before cfg false d hd.wf hd.depth k (fun h => by simp [hlit] at h) hk
    (fun h => by simp [hck] at h) (fun _ h => by simp [hck] at h)
    (fun h => by subst h; simp [JVal.isLiteral] at hlit)
  simp only [hlit, Bool.false_eq_true, if_false] at h1
  have hnum : ∀ txt, d = .num txt → ∃ r, skipNumber cfg (d.text ++ k) = .ok (r, k) := by
    rintro txt rfl
    obtain ⟨dd, e, h⟩ := skipNumber_spec cfg txt k (by simpa [JVal.WFt] using hd.wf) (hk txt rfl) (fun h => by simp [hck] at h)
    exact ⟨_, h⟩
  have hne : (d.text ++ k).isEmpty = false := by
    have := text_length_pos hd.wf
    cases hh : d.text with
    | nil => simp [hh] at this
    | cons => rfl
  cases h with
  | tru => exact hp.elim
  | fls => exact hp.elim
  | int => obtain ⟨r', h⟩ := hnum _ rfl; simp [skipKnown, hne, aw, h]
  | null => obtain ⟨t, h⟩ := hp; simp at h
  | some _ _ =>
    obtain ⟨t, rfl⟩ := hp
    obtain ⟨r', h⟩ := hnum _ rfl; simp [skipKnown, hne, aw, h]
  | map => simp [skipKnown, hne, aw, h1]
  | tup hi => simp [skipKnown, hne, aw, hi, h1]
  | var hi => simp [skipKnown, hne, aw, hi, h1]
  | ivar hi => simp [skipKnown, hne, aw, hi, h1]
  | ord hi => exact absurd hi (hp.1 _ _)
  | @str _ b _ hu =>
    have hb : IsStrBody b := by simpa [JVal.WFt] using hd.wf
    obtain ⟨sl, h⟩ := parseNq_body cfg hb k
    simp [skipKnown, JVal.text, aw, headIs, skipStringNq, h]
  | txt h =>
    have hstr : ∀ b, d = .str b → ∃ cs r, d.text ++ k = chQuote :: cs ∧ skipStringNq cfg cs = .ok (r, k) := by
      rintro b rfl
      obtain ⟨sl, h⟩ := parseNq_body cfg (by simpa [JVal.WFt] using hd.wf) k
      exact ⟨_, { text := b, counter := sl }, by rw [str_text_append], by simp [skipStringNq, h]⟩
    cases h with
    | raw => simp [skipKnown, hne, aw, h1]
    | customLit hc hl =>
      obtain ⟨b, rfl⟩ := hp
      exact hl.elim
    | real => obtain ⟨r', h⟩ := hnum _ rfl; simp [skipKnown, hne, aw, h]
    | quoted => obtain ⟨b, h⟩ := hp; cases h
    | bare =>
      obtain ⟨b, rfl⟩ := hp
      obtain ⟨r', h⟩ := hnum _ rfl
      simp [skipKnown, hne, aw, h]
    | _ =>
      obtain ⟨cs, r, e1, e2⟩ := hstr _ rfl
      rw [e1]
      simp [skipKnown, aw, headIs, e2]
  | @arr _ w es _ _ _ =>
    obtain ⟨x, hx⟩ : ∃ x, (JVal.arr w es).text ++ k = chLBrack :: x := by
      cases es <;> exact ⟨_, rfl⟩
    rw [hx] at h1 ⊢
    simp [skipValue, aw] at h1
    simp [skipKnown, aw, headIs, h1]
  | @obj i ms ex w jm vs hi _ _ _ _ =>
    obtain ⟨x, hx⟩ : ∃ x, (JVal.obj w jm).text ++ k = chLBrace :: x := by
      cases jm <;> exact ⟨_, rfl⟩
    rw [hx] at h1 ⊢
    simp [skipValue, aw] at h1
    simp [skipKnown, aw, headIs, h1, hi]

/-! ## Arrays -/

theorem hasElem_rest {tc : Bool} {w k : Bytes} {es : JElems} (h : es.WFt tc) :
    hasElem .array (arrRest w k es) = decide (0 < es.toList.length) := by
  match es with
  | .nil => simp [hasElem, arrRest, headIs, JElems.toList]
  | .cons pre d post tl =>
    simp only [JElems.WFt] at h
    obtain ⟨c, cs, hc, hne⟩ := arrRest_cons_head (w := w) (k := k) (pre := pre) (post := post) (tl := tl) h.2.1
    simp [hc, hasElem, headIs, hne, JElems.toList]

theorem itMake_array {cfg : Cfg} (hck : cfg.checked = true) {w : Bytes} {es : JElems} (hd : (JVal.arr w es).WF)
    (pre k : Bytes) (hpre : IsWs pre) :
    itMake cfg .array (pre ++ ((JVal.arr w es).text ++ k)) = .ok { pos := arrRest w k es } := by
  unfold itMake
  have h0 : trimChecked (pre ++ ((JVal.arr w es).text ++ k)) = (JVal.arr w es).text ++ k := by
    rw [trimChecked_ws _ _ hpre, trimChecked_text _ hd]
  have aw : ∀ e, assertWeak cfg.checked true e = .ok () := by intro e; cases cfg.checked <;> rfl
  simp only [trim_ck hck, h0, Res.ok_bind]
  match es, hd with
  | .nil, hd =>
    have hw : IsWs w := by
      have := hd.1
      rcases this with h | ⟨h, _⟩
      · exact h
      · simp at h
    have h1 : (JVal.arr w .nil).text ++ k = chLBrack :: (w ++ chRBrack :: k) := by simp [JVal.text]
    simp only [h1, headIs, beq_self_eq_true, aw, Res.ok_bind, List.tail_cons, trimChecked_ws _ _ hw]
    rw [trimChecked_cons_of_not _ (by decide)]
    rfl
  | .cons p d post tl, hd =>
    have hd' : IsTail false w ∧ IsWs p ∧ d.WFt false ∧ IsWs post ∧ tl.WFt false := hd
    obtain ⟨h1, h2, h3, h4, h5⟩ := hd'
    rw [arr_text]
    simp only [headIs, beq_self_eq_true, aw, Res.ok_bind, List.tail_cons, trimChecked_ws _ _ h2, trimChecked_text d h3]
    rfl

/-- The elements of an array, as an iterator meets them. -/
theorem chain_array {t : TCfg} (hck : t.cfg.checked = true) {α : Type} {ops : ElemOps α} {w k : Bytes} (hw : IsTail false w)
    (P : JVal → α → Bool → Prop)
    (hP : ∀ d a sk k', P d a sk → AfterValue k' → k' ≠ [] → (∃ r, ops.parse (d.text ++ k') = .ok (a, r) ∧ TrimEq r k') ∧
      (sk = true → ∃ r, ops.skip (d.text ++ k') = .ok r ∧ TrimEq r k')) :
    (es : JElems) → es.WFt false → (L : List (α × Bool)) → L.length = es.toList.length →
    (∀ (i : Nat) (d : JVal) (a : α) (sk : Bool), es.toList[i]? = some d → L[i]? = some (a, sk) → P d a sk) → Chain .array ops L (arrRest w k es)
  | .nil, _, L, hl, _ => by
    have : L = [] := by simpa [JElems.toList] using hl
    subst this
    simp [Chain, hasElem, arrRest, headIs]
  | .cons pre d post tl, hd, [], hl, _ => by simp [JElems.toList] at hl
  | .cons pre d post tl, hd, (a, sk) :: L, hl, h => by
    have h0 := hasElem_rest (w := w) (k := k) hd
    have hd' : IsWs pre ∧ d.WFt false ∧ IsWs post ∧ tl.WFt false := by simpa only [JElems.WFt] using hd
    obtain ⟨-, h2, h3, h4⟩ := hd'
    obtain ⟨⟨r, h5, h6⟩, h7⟩ := hP d a sk (arrAfter post tl w k) (h 0 d a sk rfl rfl) (arrAfter_after h3 hw) (arrAfter_ne _ _ _ _)
    refine ⟨by rw [h0]; simp [JElems.toList], arrRest w k tl, ?_, ⟨r, h5, ?_⟩, fun hs => ?_⟩
    · exact chain_array hck hw P hP tl h4 L (by simpa [JElems.toList] using hl)
        (fun i d a sk hi hL => h (i + 1) d a sk (by simpa [JElems.toList] using hi) (by simpa using hL))
    · rw [moveNextChecked_trimEq h6, moveNext_arr h3 h4 hw]
    · obtain ⟨r', h8, h9⟩ := h7 hs
      exact ⟨r', h8, by rw [moveNextChecked_trimEq h9, moveNext_arr h3 h4 hw]⟩

theorem elems_ok {es : JElems} (h : EOk false es) : ∀ d ∈ es.toList, DOk false d := by
  match es with
  | .nil => simp [JElems.toList]
  | .cons pre d post tl =>
    intro x hx
    simp only [JElems.toList, List.mem_cons] at hx
    rcases hx with rfl | hx
    · exact h.cons.1
    · exact elems_ok h.cons.2 x hx

theorem array_ok {w : Bytes} {es : JElems} (h : DOk false (.arr w es)) :
    IsTail false w ∧ es.WFt false ∧ ∀ d ∈ es.toList, DOk false d := by
  have := h.wf
  simp only [JVal.WFt] at this
  exact ⟨this.1, this.2, elems_ok h.elems⟩

/-- Elements of type `json_value`. -/
theorem raw_text {cfg : Cfg} (hck : cfg.checked = true) {d : JVal} (hd : DOk false d) {k : Bytes}
    (hlit : d.isLiteral = true → AfterValue k ∧ k ≠ []) (hnum : ∀ t, d = .num t → NumEnd k) :
    (∃ r, (rawOps cfg).parse (d.text ++ k) = .ok (rangeText true d, r) ∧ TrimEq r k) ∧
      ∃ r, (rawOps cfg).skip (d.text ++ k) = .ok r ∧ TrimEq r k := by
  have aw : ∀ e, assertWeak cfg.checked true e = .ok () := by intro e; cases cfg.checked <;> rfl
  have hne : (d.text ++ k).isEmpty = false := by
    have := text_length_pos hd.wf
    cases hh : d.text with
    | nil => simp [hh] at this
    | cons => rfl
  have hte : TrimEq (if d.isLiteral then dropWs k else k) k := by
    split
    · exact dropWs_trimEq k
    · exact TrimEq.refl k
  have key : ∀ kq, ∃ r, skipValue cfg kq (d.text ++ k) = .ok (r, if d.isLiteral then dropWs k else k) ∧
      r.text = rangeText kq d := by
    intro kq
    obtain ⟨r, h1, h2, -⟩ := skipValue_before cfg kq d hd.wf hd.depth k (fun h => (hlit h).1) hnum
      (fun h => by simp [hck] at h) (fun _ h => by simp [hck] at h)
      (fun h => (hlit (by subst h; rfl)).2)
    exact ⟨r, h1, h2⟩
  obtain ⟨r, h1, h2⟩ := key true
  obtain ⟨r', h3, -⟩ := key false
  exact ⟨⟨_, by simp only [rawOps, h1, Res.ok_bind, h2], hte⟩, ⟨_, by simp only [rawOps, hne, Bool.not_false, aw, h3, Res.ok_bind], hte⟩⟩

/-! ## `json_array_iterator_once` -/

/-- In the middle of an array the iterator does not stand at a closing bracket after an element. -/
theorem hasElem_middle {post w k r pre' post' : Bytes} {d' : JVal} {tl' : JElems} (hp : IsWs post)
    (h : TrimEq r (arrAfter post (.cons pre' d' post' tl') w k)) : hasElem .array r = true := by
  have h1 : trimChecked r = chComma :: (pre' ++ (d'.text ++ (post' ++ tl'.text)) ++ (w ++ chRBrack :: k)) := by
    rw [trimChecked_trimEq h]
    unfold arrAfter
    rw [trimChecked_ws _ _ hp]
    simp only [JElems.text, List.cons_append]
    rw [trimChecked_cons_of_not _ (by decide)]
  cases r with
  | nil => simp [trimChecked] at h1
  | cons c cs =>
    have : c ≠ chRBrack := by
      rintro rfl
      rw [trimChecked_cons_of_not _ (by decide)] at h1
      simp at h1
    simp [hasElem, headIs, this]

theorem onceWalk_array {cfg : Cfg} (hck : cfg.checked = true) {α : Type} {ops : ElemOps α} {w k : Bytes} (hw : IsTail false w)
    (P : JVal → α → Prop)
    (hP : ∀ d a k', P d a → AfterValue k' → k' ≠ [] → ∃ r, ops.parse (d.text ++ k') = .ok (a, r) ∧ TrimEq r k') :
    (es : JElems) → es.WFt false → (vs : List α) → vs.length = es.toList.length →
    (∀ (i : Nat) (d : JVal) (a : α), es.toList[i]? = some d → vs[i]? = some a → P d a) → (n : Nat) →
    (n < vs.length → ∃ it, onceWalk cfg ops n { pos := arrRest w k es } = .ok (vs.take n, it) ∧ itGood .array it = true) ∧
    (n = vs.length → 0 < n → es.lastPost = [] → w = [] →
      onceWalk cfg ops n { pos := arrRest w k es } = .err .unexpectedEndOfData)
  | es, hd, vs, hl, _, 0 => by
    refine ⟨fun h => ⟨_, rfl, ?_⟩, by simp⟩
    simp only [itGood, Bool.not_false, Bool.true_and, hasElem_rest hd, ← hl, decide_eq_true_eq]
    exact h
  | .nil, _, vs, hl, _, n + 1 => by
    simp only [JElems.toList, List.length_nil] at hl
    exact ⟨by omega, by omega⟩
  | .cons pre d post tl, _, [], hl, _, _ => by simp [JElems.toList] at hl
  | .cons pre d post tl, hd, v :: vs, hl, h, n + 1 => by
    have aw : assertWeak cfg.checked true .unexpectedEndOfData = .ok () := by cases cfg.checked <;> rfl
    have h0 : hasElem .array (arrRest w k (.cons pre d post tl)) = true := by
      rw [hasElem_rest hd]; simp [JElems.toList]
    have hd' : IsWs pre ∧ d.WFt false ∧ IsWs post ∧ tl.WFt false := by simpa only [JElems.WFt] using hd
    obtain ⟨-, h2, h3, h4⟩ := hd'
    obtain ⟨r, h5, h6⟩ := hP d v (arrAfter post tl w k) (h 0 d v rfl rfl) (arrAfter_after h3 hw) (arrAfter_ne _ _ _ _)
    have hpos : arrRest w k (.cons pre d post tl) = d.text ++ arrAfter post tl w k := rfl
    have hderef : onceDeref cfg ops { pos := arrRest w k (.cons pre d post tl) } = .ok (v, { pos := r }) := by
      rw [hpos] at h0 ⊢
      simp only [onceDeref, h0, aw, Res.ok_bind, h5]
    obtain ⟨ih1, ih2⟩ := onceWalk_array (k := k) hck hw P hP tl h4 vs (by simpa [JElems.toList] using hl)
        (fun i d a hi hL => h (i + 1) d a (by simpa [JElems.toList] using hi) (by simpa using hL)) n
    have hinc : tl ≠ .nil → onceInc cfg { pos := r } = .ok { pos := arrRest w k tl } := by
      intro htl
      cases tl with
      | nil => exact absurd rfl htl
      | cons =>
        simp only [onceInc, hasElem_middle h3 h6, aw, Res.ok_bind, moveNext_ck hck, moveNextChecked_trimEq h6, moveNext_arr h3 h4 hw]
    have htl : n < vs.length → tl ≠ .nil := by
      rintro hn rfl
      simp [JElems.toList] at hl
      simp [hl] at hn
    refine ⟨fun hn => ?_, fun hn _ hlp hw0 => ?_⟩
    · have hn' : n < vs.length := by simpa using hn
      obtain ⟨it, h7, h8⟩ := ih1 hn'
      refine ⟨it, ?_, h8⟩
      simp only [onceWalk, hderef, Res.ok_bind, hinc (htl hn'), h7, List.take_succ_cons]
    · have hn' : n = vs.length := by simpa using hn
      by_cases hnil : tl = .nil
      · subst hnil hw0
        have hp0 : post = [] := by simpa [JElems.lastPost] using hlp
        subst hp0
        have hr : r = chRBrack :: k := by
          obtain ⟨w', hw', he⟩ := h6
          have he : chRBrack :: k = w' ++ r := by simpa [arrAfter, JElems.text] using he
          cases w' with
          | nil => simpa using he.symm
          | cons x xs =>
            simp only [List.cons_append, List.cons.injEq] at he
            have := hw' x (by simp)
            rw [← he.1] at this
            exact absurd this (by decide)
        subst hr
        simp [onceWalk, hderef, onceInc, hasElem, headIs, assertWeak, hck]
      · have : 0 < n := by
          cases tl with
          | nil => exact absurd rfl hnil
          | cons => simp [JElems.toList] at hl; omega
        have hlp' : tl.lastPost = [] := by
          cases tl with
          | nil => exact absurd rfl hnil
          | cons => simpa [JElems.lastPost] using hlp
        simp only [onceWalk, hderef, Res.ok_bind, hinc hnil, ih2 hn' this hlp' hw0, Res.err_bind]

/-! ## JSON lines -/

theorem linesDoc_trim {ds : List JVal} {p : Bytes} (h : LinesDoc ds p) (hwf : ∀ d ∈ ds, d.WF) :
    (ds = [] ∧ trimChecked p = []) ∨
      ∃ d ds' rest, ds = d :: ds' ∧ LinesDoc ds' rest ∧ (rest = [] ∨ ∃ c cs, rest = c :: cs ∧ IsWs [c]) ∧
        trimChecked p = d.text ++ rest := by
  cases h with
  | nil hw =>
    refine Or.inl ⟨rfl, ?_⟩
    have := trimChecked_ws p [] hw
    simpa [trimChecked] using this
  | @cons w d ds rest hw hr hs =>
    exact Or.inr ⟨d, ds, rest, rfl, hr, hs, by rw [trimChecked_ws _ _ hw, trimChecked_text _ (hwf d (by simp))]⟩

theorem moveNext_lines {ds : List JVal} {p : Bytes} (h : LinesDoc ds p) (hwf : ∀ d ∈ ds, d.WF) :
    moveNextChecked p = trimChecked p := by
  unfold moveNextChecked
  rcases linesDoc_trim h hwf with ⟨-, h1⟩ | ⟨d, ds', rest, rfl, -, -, h1⟩
  · rw [h1]
  · rw [h1]
    obtain ⟨c, cs, hc, -, h2, -⟩ := text_head d (hwf d (by simp))
    rw [hc]
    have hne : c ≠ chComma := by rintro rfl; simp [isTokenAfterValue] at h2
    simp [hne]

/-- What follows a value in a JSON lines document. -/
def LineAfter (k : Bytes) : Prop := k = [] ∨ ∃ c cs, k = c :: cs ∧ IsWs [c]

theorem lineAfter_numEnd {k : Bytes} (h : LineAfter k) : NumEnd k := by
  rcases h with rfl | ⟨c, cs, rfl, h⟩
  · intro x hx; simp at hx
  · intro x hx
    simp at hx
    subst hx
    have := h c (by simp)
    rcases this with rfl | rfl | rfl | rfl <;> (unfold IsDig; decide)

theorem lineAfter_endOfItem {k : Bytes} (h : LineAfter k) : endOfItem k = true := by
  rcases h with rfl | ⟨c, cs, rfl, h⟩
  · rfl
  · have := h c (by simp)
    rcases this with rfl | rfl | rfl | rfl <;> rfl

theorem linesDoc_nil_ws {p : Bytes} (h : LinesDoc [] p) : IsWs p := by
  cases h with
  | nil h => exact h

/-- The values of a JSON lines document, as an iterator meets them. -/
theorem chain_lines {α : Type} {ops : ElemOps α} (P : Bool → JVal → α → Bool → Prop)
    (hP : ∀ last d a sk k', P last d a sk → LineAfter k' → (last = true → IsWs k') →
      (∃ r, ops.parse (d.text ++ k') = .ok (a, r) ∧ TrimEq r k') ∧
      (sk = true → ∃ r, ops.skip (d.text ++ k') = .ok r ∧ TrimEq r k')) :
    (ds : List JVal) → (∀ d ∈ ds, d.WF) → (p : Bytes) → LinesDoc ds p → (L : List (α × Bool)) → L.length = ds.length →
    (∀ (i : Nat) (d : JVal) (a : α) (sk : Bool), ds[i]? = some d → L[i]? = some (a, sk) → P (decide (i + 1 = ds.length)) d a sk) →
    Chain .lines ops L (trimChecked p)
  | [], hwf, p, h, L, hl, _ => by
    have : L = [] := by simpa using hl
    subst this
    rcases linesDoc_trim h hwf with ⟨-, h1⟩ | ⟨d, ds', rest, h0, -⟩
    · simp [h1, Chain, hasElem]
    · simp at h0
  | d :: ds, _, _, _, [], hl, _ => by simp at hl
  | d :: ds, hwf, p, h, (a, sk) :: L, hl, hL => by
    rcases linesDoc_trim h hwf with ⟨h0, -⟩ | ⟨d', ds', rest, h0, h1, h2, h3⟩
    · simp at h0
    · simp only [List.cons.injEq] at h0
      obtain ⟨rfl, rfl⟩ := h0
      have hwf' : ∀ d ∈ ds, d.WF := fun x hx => hwf x (by simp [hx])
      rw [h3]
      have hmv := moveNext_lines h1 hwf'
      obtain ⟨⟨r, h5, h6⟩, h7⟩ := hP _ d a sk rest (hL 0 d a sk rfl rfl) h2 (fun hl => by
        have : ds = [] := by simpa using hl
        subst this
        exact linesDoc_nil_ws h1)
      refine ⟨?_, trimChecked rest, ?_, ⟨r, h5, by rw [moveNextChecked_trimEq h6, hmv]⟩, fun hs => ?_⟩
      · have := text_length_pos (hwf d (by simp))
        cases hh : d.text with
        | nil => simp [hh] at this
        | cons => rfl
      · refine chain_lines P hP ds hwf' rest h1 L (by simpa using hl) (fun i d a sk hi hL' => ?_)
        have := hL (i + 1) d a sk (by simpa using hi) (by simpa using hL')
        simpa using this
      · obtain ⟨r', h8, h9⟩ := h7 hs
        exact ⟨r', h8, by rw [moveNextChecked_trimEq h9, hmv]⟩

end Verif
