import Verif.Model.Container
import Verif.Proof.TypedTop
import Verif.Proof.WriteReads
import Verif.Proof.Sound

/-!
# Arrays of a fixed size: what is read
-/

namespace Verif

open Spec

/-- The elements but the first `n`. -/
def Spec.dropElems : Nat → JElems → JElems
  | 0, es => es
  | _, .nil => .nil
  | n + 1, .cons _ _ _ tl => dropElems n tl

/-- Exactly `n` values: the first ones given, and `dflt` for those that are missing. -/
def Spec.fill (n : Nat) (dflt : Val) (vs : List Val) : List Val := vs.take n ++ List.replicate (n - vs.length) dflt

theorem fill_zero (dflt : Val) (vs : List Val) : fill 0 dflt vs = [] := by simp [fill]

theorem fill_nil (n : Nat) (dflt : Val) : fill n dflt [] = List.replicate n dflt := by simp [fill]

theorem fill_cons (n : Nat) (dflt v : Val) (vs : List Val) : fill (n + 1) dflt (v :: vs) = v :: fill n dflt vs := by simp [fill]

theorem fixElems_false (cfg : Cfg) (p : Bytes → Res (Val × Bytes)) (dflt : Val) : ∀ (n : Nat) (bs : Bytes),
    fixElems cfg p dflt n false bs = .ok (List.replicate n dflt, bs)
  | 0, _ => rfl
  | n + 1, bs => by
    unfold fixElems
    rw [fixElems_false cfg p dflt n bs]
    rfl

theorem iterNext_sem {cfg : Cfg} {tc : Bool} {w k post r : Bytes} {tl : JElems} (hpost : IsWs post) (htl : tl.WFt tc) (hw : IsTail tc w)
    (htr : TrimEq r (arrAfter post tl w k)) :
    iterNext cfg r = .ok (match tl with | .nil => (false, trimChecked k) | .cons .. => (true, arrRest w k tl)) := by
  obtain ⟨c, cs, hc, hcc⟩ := arrAfter_trim (tl := tl) (k := k) hpost hw
  have htrim : trimChecked r = c :: cs := by rw [trimChecked_trimEq htr, hc]
  have hmv : moveNextChecked (c :: cs) = arrRest w k tl := by
    rw [← hc, moveNextChecked_trim, moveNext_arr hpost htl hw]
  have hh : headIs (fun c => c == chComma || c == chRBrack) (c :: cs) = true := by
    rcases hcc with rfl | rfl <;> rfl
  unfold iterNext
  simp only [assertWeak_tt, Res.ok_bind, trim_of htrim (by simp), hh, moveNext_of hmv (arrRest_ne w k htl)]
  match tl with
  | .nil => simp [arrRest, assertWeak_tt]
  | .cons pre' d' post' tl' =>
    have hd' : d'.WFt tc := by simp only [JElems.WFt] at htl; exact htl.2.1
    obtain ⟨x, xs, hx, hxn⟩ := arrRest_cons_head (w := w) (k := k) (pre := pre') (post := post') (tl := tl') hd'
    have hde : deref (arrRest w k (.cons pre' d' post' tl')) = .ok x := by rw [hx]; rfl
    have hem : (arrRest w k (.cons pre' d' post' tl')).isEmpty = false := by rw [hx]; rfl
    simp only [hem, Bool.not_false, assertWeak_tt, Res.ok_bind, hde, if_neg hxn]

/-- What the constructor gets, and where the parser stands then. -/
theorem fixElems_sem {cfg : Cfg} {ck : Bool} {p : Bytes → Res (Val × Bytes)} (dflt : Val) {tc : Bool} {w k : Bytes} (hw : IsTail tc w) :
    ∀ (n : Nat) (tl : JElems) (pre : Bytes) (d : JVal) (post : Bytes) (v : Val) (vs : List Val),
      (JElems.cons pre d post tl).WFt tc → ElemsSem ck p (.cons pre d post tl) (v :: vs) →
      ∃ r, fixElems cfg p dflt n true (d.text ++ arrAfter post tl w k) = .ok (fill n dflt (v :: vs), r) ∧
        ((v :: vs).length ≤ n → TrimEq r k) ∧ (n < (v :: vs).length → r = arrRest w k (dropElems n (.cons pre d post tl)))
  | 0, tl, pre, d, post, v, vs, hwf, hs => ⟨_, by simp only [fixElems, fill_zero]; rfl, by simp, fun _ => by simp [dropElems, arrRest]⟩
  | n + 1, tl, pre, d, post, v, vs, hwf, hs => by
    obtain ⟨-, hd, hpost, htl⟩ := (by simpa only [JElems.WFt] using hwf : IsWs pre ∧ d.WFt tc ∧ IsWs post ∧ tl.WFt tc)
    obtain ⟨hs1, hs2⟩ := (by simpa only [ElemsSem] using hs : SemU ck p d v ∧ ElemsSem ck p tl vs)
    obtain ⟨r, hr, htr⟩ := hs1 _ (fun _ => arrAfter_follows (tl := tl) (k := k) _ _ hpost hw) (fun _ => arrAfter_nonsp _ _ _ _)
    have hne : (d.text ++ arrAfter post tl w k).isEmpty = false := by
      obtain ⟨c, cs, h, -⟩ := text_head d hd
      rw [h]; rfl
    have hit := iterNext_sem (cfg := cfg) hpost htl hw htr
    unfold fixElems
    simp only [assertWeak_tt, hne, Bool.not_false, Res.ok_bind, hr, hit]
    match tl, vs, hs2 with
    | .nil, [], _ =>
      simp only [fixElems_false, Res.ok_bind]
      refine ⟨_, by rw [fill_cons, fill_nil], fun _ => trimChecked_te (TrimEq.refl k), fun h => by simp at h⟩
    | .cons pre' d' post' tl', v' :: vs', hs2 =>
      obtain ⟨r', hr', h1, h2⟩ := fixElems_sem dflt hw (k := k) n tl' pre' d' post' v' vs' htl hs2
      have : fixElems cfg p dflt n true (arrRest w k (.cons pre' d' post' tl')) = .ok (fill n dflt (v' :: vs'), r') := hr'
      simp only [this, Res.ok_bind]
      exact ⟨r', by rw [fill_cons], fun h => h1 (by simpa using h), fun h => h2 (by simpa using h)⟩
    | .nil, _ :: _, h => simp [ElemsSem] at h
    | .cons .., [], h => simp [ElemsSem] at h

/-- Arrays of a fixed size. -/
theorem parseFixArr_sem {cfg : Cfg} {ck : Bool} {p : Bytes → Res (Val × Bytes)} (dflt : Val) (n : Nat) {tc : Bool} {w : Bytes}
    {es : JElems} {vs : List Val} (hwf : (JVal.arr w es).WFt tc) (he : es = .nil → IsWs w) (hs : ElemsSem ck p es vs) (k : Bytes) :
    ∃ r, parseFixArr cfg p dflt n ((JVal.arr w es).text ++ k) = .ok (.arr (fill n dflt vs), r) ∧
      (vs.length ≤ n → TrimEq r k) ∧ (n < vs.length → r = arrRest w k (dropElems n es)) := by
  simp only [JVal.WFt] at hwf
  unfold parseFixArr
  match es, vs, hs with
  | .nil, [], _ =>
    have hw := he rfl
    have h1 : trimChecked ((JVal.arr w .nil).text ++ k) = chLBrack :: (w ++ chRBrack :: k) := by
      simp only [JVal.text, List.cons_append, List.append_assoc, List.nil_append]
      exact trimChecked_cons_of_not _ (by decide)
    have h2 : trimUncheckedEnd cfg (w ++ chRBrack :: k) = .ok (chRBrack :: k) := trimUncheckedEnd_of_ok <| by
      rw [trimUnchecked_ws _ _ hw, trimUnchecked_cons_of_not _ (by decide)]
    simp only [trim_of h1 (by simp), Res.ok_bind, assertWeak_tt, headIs, beq_self_eq_true,
      List.tail_cons, h2, derefEnd_cons, if_true, bne_self_eq_false, fixElems_false]
    exact ⟨_, by rw [fill_nil], fun _ => trimChecked_te (TrimEq.refl k), fun h => by simp at h⟩
  | .cons pre d post tl, v :: vs, hs =>
    have htl := hwf.2
    simp only [JElems.WFt] at htl
    rw [arr_text]
    have h1 : trimChecked (chLBrack :: (pre ++ (d.text ++ arrAfter post tl w k)))
        = chLBrack :: (pre ++ (d.text ++ arrAfter post tl w k)) := trimChecked_cons_of_not _ (by decide)
    obtain ⟨c, cs, h, hsp, htok, -⟩ := text_head d htl.2.1
    have h2 : trimUncheckedEnd cfg (pre ++ (d.text ++ arrAfter post tl w k)) = .ok (d.text ++ arrAfter post tl w k) := trimUncheckedEnd_of_ok <| by
      rw [trimUnchecked_ws _ _ htl.1, h, List.cons_append, trimUnchecked_cons_of_not _ hsp]
    have h3 : derefEnd cfg (d.text ++ arrAfter post tl w k) = .ok c := by rw [h]; rfl
    have h4 : c ≠ chRBrack := by rintro rfl; simp [isTokenAfterValue] at htok
    obtain ⟨r, hr, h5, h6⟩ := fixElems_sem (cfg := cfg) dflt hwf.1 (k := k) n tl pre d post v vs hwf.2 hs
    have h7 : (c != chRBrack) = true := by simpa using h4
    simp only [trim_of h1 (by simp), Res.ok_bind, assertWeak_tt, headIs, beq_self_eq_true,
      List.tail_cons, h2, h3, if_neg h4, h7, hr]
    exact ⟨r, rfl, h5, h6⟩
  | .nil, _ :: _, h => simp [ElemsSem] at h
  | .cons .., [], h => simp [ElemsSem] at h

theorem elemsSem_length {ck : Bool} {p : Bytes → Res (Val × Bytes)} : ∀ {es : JElems} {vs : List Val}, ElemsSem ck p es vs → ∀ n, n < vs.length →
    ∃ pre d post tl, dropElems n es = .cons pre d post tl
  | .cons pre d post tl, v :: vs, _, 0, _ => ⟨pre, d, post, tl, rfl⟩
  | .cons pre d post tl, v :: vs, h, n + 1, hn => elemsSem_length (es := tl) (vs := vs) (by simp only [ElemsSem] at h; exact h.2) n (by simpa using hn)
  | .nil, [], _, n, hn => by simp at hn
  | .nil, _ :: _, h, _, _ => by simp [ElemsSem] at h
  | .cons .., [], h, _, _ => by simp [ElemsSem] at h

theorem dropElems_wf {tc : Bool} : ∀ (n : Nat) {es : JElems}, es.WFt tc → (dropElems n es).WFt tc
  | 0, _, h => h
  | _ + 1, .nil, h => h
  | n + 1, .cons _ _ _ tl, h => dropElems_wf n (es := tl) (by simp only [JElems.WFt] at h; exact h.2.2.2)

/-- An element that has a further one behind it does not begin with a comma or a bracket. -/
theorem arrRest_drop_head {ck tc : Bool} {p : Bytes → Res (Val × Bytes)} {w k : Bytes} {es : JElems} {vs : List Val} (hwf : es.WFt tc)
    (hs : ElemsSem ck p es vs) {n : Nat} (hn : n < vs.length) :
    ∃ c cs, arrRest w k (dropElems n es) = c :: cs ∧ isSpace c = false ∧ isTokenAfterValue c = false := by
  obtain ⟨pre, d, post, tl, hd⟩ := elemsSem_length hs n hn
  have h := dropElems_wf n hwf
  rw [hd] at h ⊢
  simp only [JElems.WFt] at h
  obtain ⟨c, cs, h1, h2, h3, -⟩ := text_head d h.2.1
  exact ⟨c, cs ++ arrAfter post tl w k, by simp [arrRest, h1], h2, h3⟩

end Verif
