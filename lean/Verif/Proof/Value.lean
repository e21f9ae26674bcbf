import Verif.Spec.Value
import Verif.Proof.TypedTop

/-!
# Iteration over the members and elements of a value
-/

namespace Verif

open Spec

theorem text_good {tc : Bool} {d : JVal} (hd : d.WFt tc) (o : UInt8) (k : Bytes) : JIter.good ⟨o, d.text ++ k⟩ = .ok true := by
  match d with
  | .null | .tru | .fls | .str _ | .arr _ .nil | .arr _ (.cons ..) | .obj _ .nil | .obj _ (.cons ..) =>
    simp [JIter.good, JVal.text]
  | .num t =>
    have ht : IsNumber t := by simpa [JVal.WFt] using hd
    obtain ⟨x, t', rfl, hx⟩ : ∃ x t', t = x :: t' ∧ (x = chMinus ∨ IsDig x) := by
      obtain ⟨m, i, f, e, hm, hi, _, _, rfl⟩ := ht
      obtain ⟨y, i', rfl, hy⟩ := isDigits_head (isInt_digits hi)
      rcases hm with rfl | rfl
      · exact ⟨y, _, rfl, Or.inr hy⟩
      · exact ⟨_, _, rfl, Or.inl rfl⟩
    rw [← isDigit_iff] at hx
    simp only [JIter.good, JVal.text, List.cons_append]
    rw [if_pos]
    rcases hx with h | h <;> simp [h]

/-- The iterator is at the first of the items left. -/
def Cur (t : TCfg) : List (Option Bytes × JVal) → JIter → Prop
  | [], it => it.good = .ok false ∧ ∃ x k, it.pos = x :: k ∧ (x = chRBrack ∨ x = chRBrace) ∧ (it.opener = chLBrack ↔ x = chRBrack)
  | (n, d) :: tl, it =>
    it.good = .ok true ∧ it.name t = .ok n ∧ (∃ k, it.get t = .ok (n, d.text ++ k) ∧ AfterValue k ∧ k ≠ []) ∧
      ∃ it', it.next t = .ok it' ∧ it'.pos.length < it.pos.length ∧ Cur t tl it'

variable {t : TCfg}

theorem cur_arr (hck : t.cfg.checked = true) {w k : Bytes} (hw : IsWs w) (es : JElems) (he : EOk false es) :
    Cur t (es.toList.map fun d => (none, d)) ⟨chLBrack, arrRest w k es⟩ := by
  match es with
  | .nil =>
    refine ⟨by simp [JIter.good, arrRest, isDigit, parseDigit], chRBrack, k, rfl, Or.inl rfl, by simp⟩
  | .cons pre d post tl =>
    obtain ⟨hd, htl⟩ := he.cons
    have hwf := he.wf
    simp only [JElems.WFt] at hwf
    have haf := arrAfter_after (tl := tl) (k := k) hwf.2.2.1 (Or.inl hw : IsTail false w)
    have hne := arrAfter_ne post tl w k
    have hgood := text_good hd.wf chLBrack (arrAfter post tl w k)
    obtain ⟨r, b, hs, hb, -⟩ := skipValue_stored (cfg := t.cfg) hd.wf hd.depth hd.size haf (arrAfter_nonsp _ _ _ _)
    refine ⟨hgood, by simp [JIter.name], ⟨_, ?_, haf, hne⟩, ⟨chLBrack, arrRest w k tl⟩, ?_, ?_, cur_arr hck hw tl htl⟩
    · simp [JIter.get, arrRest, jvMake, trim_ck hck, trimChecked_text d hd.wf]
    · have hg' : JIter.good ⟨chLBrack, arrRest w k (.cons pre d post tl)⟩ = .ok true := hgood
      have hE : arrRest w k (.cons pre d post tl) = d.text ++ arrAfter post tl w k := rfl
      unfold JIter.next
      rw [hg', hE]
      simp only [Res.ok_bind, if_true]
      rw [if_neg (by decide)]
      simp only [Res.ok_bind, hs, moveNext_ck hck]
      rw [moveNextChecked_trimEq hb, moveNext_arr hwf.2.2.1 hwf.2.2.2 (Or.inl hw)]
    · have := arrRest_length w k post tl
      have := text_length_pos hd.wf
      have hE : arrRest w k (.cons pre d post tl) = d.text ++ arrAfter post tl w k := rfl
      simp only [hE, List.length_append]
      omega

theorem cur_obj (hck : t.cfg.checked = true) {w k : Bytes} (hw : IsWs w) (ms : JMems) (he : MOk false ms)
    (hn : ∀ n ∈ ms.names, PlainName n ∨ t.escNames = true) :
    Cur t (ms.toList.map fun p => (some p.1, p.2)) ⟨chLBrace, objRest w k ms⟩ := by
  match ms with
  | .nil =>
    refine ⟨by simp [JIter.good, objRest, isDigit, parseDigit], chRBrace, k, rfl, Or.inr rfl, by simp⟩
  | .cons pre n pc qc d post tl =>
    obtain ⟨hd, htl, hl⟩ := he.cons
    have hwf := he.wf
    simp only [JMems.WFt] at hwf
    have haf := objAfter_after (tl := tl) (k := k) hwf.2.2.2.2.2.1 (Or.inl hw : IsTail false w)
    have hne := objAfter_ne post tl w k
    have hpn := parseName_ck (t := t) (k := objAfter post tl w k) hwf.2.1 hl (hn n (by simp [JMems_names_cons])) hwf.2.2.1 hwf.2.2.2.1
      hd.wf
    have hg' : JIter.good ⟨chLBrace, objRest w k (.cons pre n pc qc d post tl)⟩ = .ok true := by
      simp [JIter.good, objRest]
    obtain ⟨r, b, hs, hb, -⟩ := skipValue_stored (cfg := t.cfg) hd.wf hd.depth hd.size haf (objAfter_nonsp _ _ _ _)
    refine ⟨hg', ?_, ⟨_, ?_, haf, hne⟩, ⟨chLBrace, objRest w k tl⟩, ?_, ?_, cur_obj hck hw tl htl ?_⟩
    · simp [JIter.name, objRest, hpn]
    · simp only [JIter.get, objRest, hpn, Res.ok_bind, jvMake, trim_ck hck, trimChecked_text d hd.wf]
      rw [if_neg (by decide)]
    · have hE : objRest w k (.cons pre n pc qc d post tl) =
        0x22 :: (n ++ 0x22 :: (pc ++ 0x3A :: (qc ++ (d.text ++ objAfter post tl w k)))) := rfl
      unfold JIter.next
      rw [hg', hE]
      simp only [Res.ok_bind, if_true, hpn, hs, moveNext_ck hck]
      rw [moveNextChecked_trimEq hb, moveNext_obj hwf.2.2.2.2.2.1 hwf.2.2.2.2.2.2 (Or.inl hw)]
    · have := objRest_length w k post tl
      have := text_length_pos hd.wf
      have hE : objRest w k (.cons pre n pc qc d post tl) =
        0x22 :: (n ++ 0x22 :: (pc ++ 0x3A :: (qc ++ (d.text ++ objAfter post tl w k)))) := rfl
      simp only [hE, List.length_append, List.length_cons]
      omega
    · intro m hm
      exact hn m (by simp [JMems_names_cons, hm])

theorem names_of_allNames {P : Bytes → Prop} {ms : JMems} (h : ms.allNames P) : ∀ n ∈ ms.names, P n := by
  match ms with
  | .nil => simp [JMems.names, JMems.toList]
  | .cons pre n pc qc d post tl =>
    simp only [JMems.allNames] at h
    intro m hm
    rw [JMems_names_cons, List.mem_cons] at hm
    rcases hm with rfl | hm
    · exact h.1
    · exact names_of_allNames h.2.2 m hm

/-- The members or elements themselves are good. -/
theorem items_ok {esc : Bool} {d : JVal} (hd : DOk false d) (hn : d.NamesOk esc) :
    ∀ p ∈ d.items, DOk false p.2 ∧ p.2.NamesOk esc := by
  have harr : ∀ es : JElems, EOk false es → es.allNames (fun n => PlainName n ∨ esc = true) →
      ∀ x ∈ es.toList, DOk false x ∧ x.NamesOk esc := by
    intro es
    induction h : es.toList generalizing es with
    | nil => simp
    | cons y ys ih =>
      match es with
      | .nil => simp [JElems.toList] at h
      | .cons pre v post tl =>
        simp only [JElems.toList, List.cons.injEq] at h
        intro he hna x hx
        simp only [JElems.allNames] at hna
        rcases List.mem_cons.1 hx with rfl | hx
        · rw [← h.1]; exact ⟨he.cons.1, hna.1⟩
        · exact ih tl h.2 he.cons.2 hna.2 x hx
  have hobj : ∀ ms : JMems, MOk false ms → ms.allNames (fun n => PlainName n ∨ esc = true) →
      ∀ x ∈ ms.toList, DOk false x.2 ∧ x.2.NamesOk esc := by
    intro ms
    induction h : ms.toList generalizing ms with
    | nil => simp
    | cons y ys ih =>
      match ms with
      | .nil => simp [JMems.toList] at h
      | .cons pre n pc qc v post tl =>
        simp only [JMems.toList, List.cons.injEq] at h
        intro he hna x hx
        simp only [JMems.allNames] at hna
        rcases List.mem_cons.1 hx with rfl | hx
        · rw [← h.1]; exact ⟨he.cons.1, hna.2.1⟩
        · exact ih tl h.2 he.cons.2.1 hna.2.2 x hx
  intro p hp
  match d with
  | .null | .tru | .fls | .num _ | .str _ => simp [JVal.items] at hp
  | .arr w es =>
    simp only [JVal.items, List.mem_map] at hp
    obtain ⟨x, hx, rfl⟩ := hp
    exact harr es hd.elems (by simpa [JVal.NamesOk, JVal.allNames] using hn) x hx
  | .obj w ms =>
    simp only [JVal.items, List.mem_map] at hp
    obtain ⟨x, hx, rfl⟩ := hp
    exact hobj ms hd.mems (by simpa [JVal.NamesOk, JVal.allNames] using hn) x hx

/-- `begin( )` of a container. -/
theorem jvBegin_cur (hck : t.cfg.checked = true) {d : JVal} (hc : d.isContainer = true) (hd : DOk false d)
    (hn : d.NamesOk t.escNames) (k : Bytes) : ∃ it, jvBegin t.cfg (d.text ++ k) = .ok it ∧ Cur t d.items it := by
  match d with
  | .null | .tru | .fls | .num _ | .str _ => simp [JVal.isContainer] at hc
  | .arr w es =>
    have hwf := hd.wf
    simp only [JVal.WFt] at hwf
    have hw : IsWs w := by rcases hwf.1 with h | h; exact h; simp at h
    refine ⟨⟨chLBrack, arrRest w k es⟩, ?_, cur_arr hck hw es hd.elems⟩
    match es with
    | .nil =>
      simp only [JVal.text, List.cons_append, jvBegin, trim_ck hck, Res.ok_bind, List.append_assoc, List.nil_append]
      rw [trimChecked_ws _ _ hw, trimChecked_cons_of_not _ (by decide)]
      rfl
    | .cons pre v post tl =>
      have h := hwf.2
      simp only [JElems.WFt] at h
      rw [arr_text]
      simp only [jvBegin, trim_ck hck, Res.ok_bind]
      rw [trimChecked_ws _ _ h.1, trimChecked_text v h.2.1]
      rfl
  | .obj w ms =>
    have hwf := hd.wf
    simp only [JVal.WFt] at hwf
    have hw : IsWs w := by rcases hwf.1 with h | h; exact h; simp at h
    refine ⟨⟨chLBrace, objRest w k ms⟩, ?_, cur_obj hck hw ms hd.mems (names_of_allNames (by simpa [JVal.NamesOk, JVal.allNames] using hn))⟩
    match ms with
    | .nil =>
      simp only [JVal.text, List.cons_append, jvBegin, trim_ck hck, Res.ok_bind, List.append_assoc, List.nil_append]
      rw [trimChecked_ws _ _ hw, trimChecked_cons_of_not _ (by decide)]
      rfl
    | .cons pre n pc qc v post tl =>
      have h := hwf.2
      simp only [JMems.WFt] at h
      rw [obj_text]
      simp only [jvBegin, trim_ck hck, Res.ok_bind]
      rw [trimChecked_ws _ _ h.1]
      simp only [objRest]
      rw [trimChecked_cons_of_not _ (by decide)]

/-- The kind of a value. -/
theorem jvType_text {tc : Bool} (cfg : Cfg) {d : JVal} (hd : d.WFt tc) (k : Bytes) : jvType cfg (d.text ++ k) = .ok d.kind := by
  match d with
  | .null => cases h : cfg.checked <;> simp [jvType, JVal.text, JVal.kind, isDigit, parseDigit, h]
  | .tru | .fls | .str _ | .arr _ .nil | .arr _ (.cons ..) | .obj _ .nil | .obj _ (.cons ..) =>
    simp [jvType, JVal.text, JVal.kind, isDigit, parseDigit]
  | .num t =>
    have ht : IsNumber t := by simpa [JVal.WFt] using hd
    obtain ⟨x, t', rfl, hx⟩ : ∃ x t', t = x :: t' ∧ (x = chMinus ∨ IsDig x) := by
      obtain ⟨m, i, f, e, hm, hi, _, _, rfl⟩ := ht
      obtain ⟨y, i', rfl, hy⟩ := isDigits_head (isInt_digits hi)
      rcases hm with rfl | rfl
      · exact ⟨y, _, rfl, Or.inr hy⟩
      · exact ⟨_, _, rfl, Or.inl rfl⟩
    rw [← isDigit_iff] at hx
    have h1 : x ≠ chQuote ∧ x ≠ chLBrace ∧ x ≠ chLBrack := by
      refine ⟨?_, ?_, ?_⟩ <;> (rintro rfl; revert hx; decide)
    simp only [jvType, JVal.text, List.cons_append, h1, if_false]
    rw [if_pos (by rcases hx with h | h <;> simp [h])]
    rfl

theorem DOk_get {esc : Bool} {d : JVal} (hd : DOk false d) (hn : d.NamesOk esc) {s : Step} {e : JVal} (h : d.step s = some e) :
    DOk false e ∧ e.NamesOk esc := by
  have : ∃ n, (n, e) ∈ d.items := by
    cases s with
    | index i =>
      simp only [JVal.step, Option.map_eq_some_iff] at h
      obtain ⟨p, hp, rfl⟩ := h
      exact ⟨p.1, List.mem_of_getElem? hp⟩
    | name n =>
      match d with
      | .null | .tru | .fls | .num _ | .str _ | .arr .. => simp [JVal.step] at h
      | .obj w ms =>
        simp only [JVal.step, JMems.get?] at h
        refine ⟨some n, ?_⟩
        simp only [JVal.items, List.mem_map]
        refine ⟨(n, e), ?_, rfl⟩
        revert h
        induction ms.toList with
        | nil => simp
        | cons p ps ih =>
          obtain ⟨a, b⟩ := p
          by_cases hab : n = a
          · subst hab
            simp only [List.lookup_cons, beq_self_eq_true, Option.some.injEq]
            rintro rfl; simp
          · have hb : (n == a) = false := by simpa using hab
            simp only [List.lookup_cons, hb]
            intro h; exact List.mem_cons_of_mem _ (ih h)
  obtain ⟨n, hp⟩ := this
  exact items_ok hd hn _ hp

end Verif
