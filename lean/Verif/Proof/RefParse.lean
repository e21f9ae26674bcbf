import Verif.Spec.Write

/-!
# A text is the text of at most one document

A parser for JSON without layout, used to show that the grammar of `Verif.Spec.Json` is not ambiguous, and to show of given
texts that they are not JSON.  It is no model of anything.
-/

namespace Verif

open Spec

def rIsWs (c : UInt8) : Bool := c == 0x20 || c == 0x09 || c == 0x0A || c == 0x0D

def rWs (bs : Bytes) : Bytes := bs.dropWhile rIsWs

def rIsNum (c : UInt8) : Bool := (0x30 ≤ c && c ≤ 0x39) || c == 0x2B || c == 0x2D || c == 0x2E || c == 0x45 || c == 0x65

def rStr : Bytes → Option (Bytes × Bytes)
  | [] => none
  | c :: r =>
    if c = 0x22 then some ([], r)
    else if c = 0x5C then
      match r with
      | [] => none
      | e :: r => (rStr r).map fun p => (c :: e :: p.1, p.2)
    else (rStr r).map fun p => (c :: p.1, p.2)

def rLit (v : JVal) (t r : Bytes) : Option (JVal × Bytes) :=
  if r.take t.length = t then some (v, r.drop t.length) else none

mutual
def rVal : Nat → Bytes → Option (JVal × Bytes)
  | 0, _ => none
  | _ + 1, [] => none
  | f + 1, c :: r =>
    if c = 0x22 then (rStr r).map fun p => (.str p.1, p.2)
    else if c = 0x5B then
      match rWs r with
      | [] => none
      | e :: r => if e = 0x5D then some (.arr [] .nil, r) else (rElems f (e :: r)).map fun p => (.arr [] p.1, p.2)
    else if c = 0x7B then
      match rWs r with
      | [] => none
      | e :: r => if e = 0x7D then some (.obj [] .nil, r) else (rMems f (e :: r)).map fun p => (.obj [] p.1, p.2)
    else if c = 0x6E then rLit .null [0x75, 0x6C, 0x6C] r
    else if c = 0x74 then rLit .tru [0x72, 0x75, 0x65] r
    else if c = 0x66 then rLit .fls [0x61, 0x6C, 0x73, 0x65] r
    else if rIsNum c then some (.num (c :: r.takeWhile rIsNum), r.dropWhile rIsNum)
    else none
def rElems : Nat → Bytes → Option (JElems × Bytes)
  | 0, _ => none
  | f + 1, bs =>
    match rVal f bs with
    | none => none
    | some (v, r) =>
      match rWs r with
      | [] => none
      | c :: r =>
        if c = 0x5D then some (.cons [] v [] .nil, r)
        else if c = 0x2C then (rElems f (rWs r)).map fun p => (.cons [] v [] p.1, p.2)
        else none
def rMems : Nat → Bytes → Option (JMems × Bytes)
  | 0, _ => none
  | _ + 1, [] => none
  | f + 1, q :: bs =>
    if q = 0x22 then
      match rStr bs with
      | none => none
      | some (n, r) =>
        match rWs r with
        | [] => none
        | c :: r =>
          if c = 0x3A then
            match rVal f (rWs r) with
            | none => none
            | some (v, r) =>
              match rWs r with
              | [] => none
              | c :: r =>
                if c = 0x7D then some (.cons [] n [] [] v [] .nil, r)
                else if c = 0x2C then (rMems f (rWs r)).map fun p => (.cons [] n [] [] v [] p.1, p.2)
                else none
          else none
    else none
end

/-- The document without layout, if there is one and nothing else. -/
def rDoc (bs : Bytes) : Option JVal :=
  match rVal bs.length (rWs bs) with
  | none => none
  | some (v, r) => if rWs r = [] then some v else none

/-! ## It reads every document -/

theorem rIsWs_iff (c : UInt8) : rIsWs c = true ↔ isWsByte c := by
  simp [rIsWs, isWsByte, or_assoc]

theorem rWs_cons {c : UInt8} {r : Bytes} (h : ¬ isWsByte c) : rWs (c :: r) = c :: r := by
  rw [rWs, List.dropWhile_cons, if_neg (fun h' => h ((rIsWs_iff c).1 h'))]

theorem rWs_append {w r : Bytes} (h : IsWs w) : rWs (w ++ r) = rWs r := by
  induction w with
  | nil => rfl
  | cons c w ih =>
    rw [rWs, List.cons_append, List.dropWhile_cons, if_pos ((rIsWs_iff c).2 (h c (List.mem_cons_self ..)))]
    exact ih fun c hc => h c (List.mem_cons_of_mem _ hc)

theorem rWs_skip {w : Bytes} {c : UInt8} {r : Bytes} (h : IsWs w) (hc : ¬ isWsByte c) : rWs (w ++ c :: r) = c :: r := by
  rw [rWs_append h, rWs_cons hc]

theorem rWs_all {w : Bytes} (h : IsWs w) : rWs w = [] := by
  have := rWs_append (r := []) h
  rwa [List.append_nil] at this

theorem rStr_quote (r : Bytes) : rStr (0x22 :: r) = some ([], r) := by
  rw [rStr.eq_def]
  simp

theorem rStr_plain {c : UInt8} (h1 : c ≠ 0x22) (h2 : c ≠ 0x5C) (r : Bytes) :
    rStr (c :: r) = (rStr r).map fun p => (c :: p.1, p.2) := by
  rw [rStr.eq_def]
  simp [h1, h2]

theorem rStr_esc (e : UInt8) (r : Bytes) : rStr (0x5C :: e :: r) = (rStr r).map fun p => (0x5C :: e :: p.1, p.2) := by
  rw [rStr.eq_def]
  simp

theorem rStr_body {b : Bytes} (h : IsStrBody b) (r : Bytes) : rStr (b ++ 0x22 :: r) = some (b, r) := by
  have hex : ∀ c, IsHex c → c ≠ 0x22 ∧ c ≠ 0x5C := by
    intro c hc
    constructor <;>
    · rintro rfl
      exact absurd hc (by unfold IsHex IsDig; decide)
  induction h with
  | nil => exact rStr_quote r
  | plain _ h2 h3 _ ih =>
    rw [List.cons_append, rStr_plain h2 h3, ih]
    rfl
  | esc _ _ ih =>
    rw [List.cons_append, List.cons_append, rStr_esc, ih]
    rfl
  | uni ha hb hc hd _ ih =>
    simp only [List.cons_append]
    rw [rStr_esc, rStr_plain (hex _ ha).1 (hex _ ha).2, rStr_plain (hex _ hb).1 (hex _ hb).2,
      rStr_plain (hex _ hc).1 (hex _ hc).2, rStr_plain (hex _ hd).1 (hex _ hd).2, ih]
    rfl

/-- What may come after a number. -/
def NotNum (r : Bytes) : Prop := ∀ c ∈ r.head?, rIsNum c = false

theorem notNum_cons {c : UInt8} {r : Bytes} (h : rIsNum c = false) : NotNum (c :: r) := by
  intro x hx
  cases hx
  exact h

theorem notNum_ws {w r : Bytes} (h : IsWs w) (hr : NotNum r) : NotNum (w ++ r) := by
  cases w with
  | nil => exact hr
  | cons c w =>
    refine notNum_cons ?_
    rcases h c (List.mem_cons_self ..) with rfl | rfl | rfl | rfl <;> decide

theorem isDig_num {c : UInt8} (h : IsDig c) : rIsNum c = true := by
  simp [rIsNum, h.1, h.2]

theorem rNum_chars {t : Bytes} (h : IsNumber t) : t ≠ [] ∧ (∀ c ∈ t, rIsNum c = true) ∧
    ∀ c ∈ t.head?, IsDig c ∨ c = 0x2D := by
  obtain ⟨m, i, f, x, hm, hi, hf, hx, rfl⟩ := h
  have hi0 : i ≠ [] ∧ (∀ c ∈ i, IsDig c) := by
    rcases hi with rfl | h
    · exact ⟨by simp, by simp [IsDig]⟩
    · exact h.1
  refine ⟨fun h => ?_, fun c hc => ?_, fun c hc => ?_⟩
  · simp only [List.append_eq_nil_iff] at h
    exact hi0.1 h.2.1
  · simp only [List.mem_append] at hc
    rcases hc with hc | hc | hc | hc
    · rcases hm with rfl | rfl
      · cases hc
      · simp only [List.mem_singleton] at hc
        subst hc
        decide
    · exact isDig_num (hi0.2 c hc)
    · rcases hf with rfl | ⟨ds, hd, rfl⟩
      · cases hc
      · rcases List.mem_cons.1 hc with rfl | hc
        · decide
        · exact isDig_num (hd.2 c hc)
    · rcases hx with rfl | ⟨e, s, ds, he, hs, hd, rfl⟩
      · cases hc
      · rcases List.mem_cons.1 hc with rfl | hc
        · rcases he with rfl | rfl <;> decide
        · rcases List.mem_append.1 hc with hc | hc
          · rcases hs with rfl | rfl | rfl
            · cases hc
            · simp only [List.mem_singleton] at hc
              subst hc
              decide
            · simp only [List.mem_singleton] at hc
              subst hc
              decide
          · exact isDig_num (hd.2 c hc)
  · rcases hm with rfl | rfl
    · left
      cases i with
      | nil => exact absurd rfl hi0.1
      | cons d i =>
        cases hc
        exact hi0.2 _ (List.mem_cons_self ..)
    · right
      cases hc
      rfl

theorem text_first {v : JVal} (h : v.WF) : ∃ c r, v.text = c :: r ∧ ¬ isWsByte c ∧ c ≠ 0x5D ∧ c ≠ 0x7D := by
  cases v with
  | null => exact ⟨_, _, rfl, by unfold isWsByte; decide, by decide, by decide⟩
  | tru => exact ⟨_, _, rfl, by unfold isWsByte; decide, by decide, by decide⟩
  | fls => exact ⟨_, _, rfl, by unfold isWsByte; decide, by decide, by decide⟩
  | str b => exact ⟨_, _, rfl, by unfold isWsByte; decide, by decide, by decide⟩
  | arr w es => cases es <;> exact ⟨_, _, rfl, by unfold isWsByte; decide, by decide, by decide⟩
  | obj w es => cases es <;> exact ⟨_, _, rfl, by unfold isWsByte; decide, by decide, by decide⟩
  | num t =>
    obtain ⟨h1, _, h3⟩ := rNum_chars h
    cases t with
    | nil => exact absurd rfl h1
    | cons c t =>
      refine ⟨c, t, rfl, ?_⟩
      have := h3 c rfl
      refine ⟨?_, ?_, ?_⟩
      · rintro (rfl | rfl | rfl | rfl) <;> exact absurd this (by unfold IsDig; decide)
      · rintro rfl
        exact absurd this (by unfold IsDig; decide)
      · rintro rfl
        exact absurd this (by unfold IsDig; decide)

theorem takeWhile_num {t r : Bytes} (h : ∀ c ∈ t, rIsNum c = true) (hr : NotNum r) :
    (t ++ r).takeWhile rIsNum = t ∧ (t ++ r).dropWhile rIsNum = r := by
  induction t with
  | nil =>
    cases r with
    | nil => exact ⟨rfl, rfl⟩
    | cons c r =>
      have := hr c rfl
      simp [this]
  | cons c t ih =>
    have hc := h c (List.mem_cons_self ..)
    have := ih fun c hc => h c (List.mem_cons_of_mem _ hc)
    simp [hc, this.1, this.2]

theorem tail_ws {w : Bytes} (h : IsTail false w) : IsWs w := by
  rcases h with h | h
  · exact h
  · cases h.1

theorem filter_ws {w : Bytes} (h : IsWs w) : w.filter (· = 0x2C) = [] := by
  rw [List.filter_eq_nil_iff]
  intro c hc
  rcases h c hc with rfl | rfl | rfl | rfl <;> decide

theorem not_ws_iff {c : UInt8} (h : c = 0x5D ∨ c = 0x7D ∨ c = 0x2C ∨ c = 0x3A ∨ c = 0x22) : ¬ isWsByte c := by
  rcases h with rfl | rfl | rfl | rfl | rfl <;> (unfold isWsByte; decide)

theorem rVal_num {f : Nat} {t r : Bytes} (h : IsNumber t) (hr : NotNum r) : rVal (f + 1) (t ++ r) = some (.num t, r) := by
  obtain ⟨h1, h2, h3⟩ := rNum_chars h
  cases t with
  | nil => exact absurd rfl h1
  | cons c t =>
    have hc := h3 c rfl
    have hne : ∀ x : UInt8, ¬ (IsDig x ∨ x = 0x2D) → c ≠ x := fun x hx he => hx (he ▸ hc)
    have htw := takeWhile_num (fun c hc => h2 c (List.mem_cons_of_mem _ hc)) hr
    rw [List.cons_append, rVal, if_neg (hne _ (by unfold IsDig; decide)), if_neg (hne _ (by unfold IsDig; decide)),
      if_neg (hne _ (by unfold IsDig; decide)), if_neg (hne _ (by unfold IsDig; decide)),
      if_neg (hne _ (by unfold IsDig; decide)), if_neg (hne _ (by unfold IsDig; decide)),
      if_pos (h2 c (List.mem_cons_self ..)), htw.1, htw.2]

mutual
theorem rVal_text : (v : JVal) → v.WF → (f : Nat) → v.text.length ≤ f → (r : Bytes) → NotNum r →
    rVal f (v.text ++ r) = some (v.strip, r)
  | v, h, 0, hf, r, hr => by
    obtain ⟨c, x, hx, _⟩ := text_first h
    rw [hx] at hf
    simp at hf
  | .null, _, f + 1, _, r, _ => by simp [JVal.text, rVal, rLit, JVal.strip]
  | .tru, _, f + 1, _, r, _ => by simp [JVal.text, rVal, rLit, JVal.strip]
  | .fls, _, f + 1, _, r, _ => by simp [JVal.text, rVal, rLit, JVal.strip]
  | .num t, h, f + 1, _, r, hr => rVal_num h hr
  | .str b, h, f + 1, _, r, hr => by
    rw [JVal.text, List.cons_append, rVal, if_pos rfl, List.append_assoc, List.singleton_append, rStr_body h]
    rfl
  | .arr w .nil, h, f + 1, _, r, hr => by
    rw [JVal.text, List.cons_append, rVal, if_neg (by decide), if_pos rfl, List.append_assoc, List.singleton_append,
      rWs_skip (tail_ws h.1) (not_ws_iff (by decide))]
    simp [JVal.strip, filter_ws (tail_ws h.1), JElems.strip]
  | .arr w (.cons pre v post tl), h, f + 1, hf, r, hr => by
    obtain ⟨hw, hpre, hv, hpost, htl⟩ := h
    obtain ⟨c, x, hx, hc, hne, _⟩ := text_first hv
    have ih := rElems_text v tl hv htl post hpost w (tail_ws hw) f (by
      simp only [JVal.text, List.length_cons, List.length_append] at hf ⊢
      omega) r
    rw [JVal.text, List.cons_append, rVal, if_neg (by decide), if_pos rfl]
    simp only [List.append_assoc, List.singleton_append, rWs_append hpre]
    rw [hx] at ih ⊢
    rw [List.cons_append, rWs_cons hc]
    simp only [if_neg hne]
    rw [List.cons_append] at ih
    rw [ih]
    simp [JVal.strip, filter_ws (tail_ws hw), JElems.strip]
  | .obj w .nil, h, f + 1, _, r, hr => by
    rw [JVal.text, List.cons_append, rVal, if_neg (by decide), if_neg (by decide), if_pos rfl, List.append_assoc,
      List.singleton_append, rWs_skip (tail_ws h.1) (not_ws_iff (by decide))]
    simp [JVal.strip, filter_ws (tail_ws h.1), JMems.strip]
  | .obj w (.cons pre n pc qc v post tl), h, f + 1, hf, r, hr => by
    obtain ⟨hw, hpre, hn, hpc, hqc, hv, hpost, htl⟩ := h
    have ih := rMems_text n pc qc v tl hn hpc hqc hv htl post hpost w (tail_ws hw) f (by
      simp only [JVal.text, List.length_cons, List.length_append] at hf ⊢
      omega) r
    rw [JVal.text, List.cons_append, rVal, if_neg (by decide), if_neg (by decide), if_pos rfl]
    simp only [List.append_assoc, List.cons_append, List.nil_append, rWs_append hpre]
    rw [rWs_cons (not_ws_iff (by decide))]
    simp only
    rw [if_neg (by decide), ih]
    simp [JVal.strip, filter_ws (tail_ws hw), JMems.strip]
theorem rElems_text : (v : JVal) → (tl : JElems) → v.WF → tl.WFt false → (post : Bytes) → IsWs post → (w : Bytes) → IsWs w →
    (f : Nat) → v.text.length + (post.length + tl.text.length) + 1 ≤ f → (r : Bytes) →
    rElems f (v.text ++ (post ++ (tl.text ++ (w ++ 0x5D :: r)))) = some (.cons [] v.strip [] tl.strip, r)
  | _, _, _, _, _, _, _, _, 0, hf, _ => by omega
  | v, .nil, hv, _, post, hpost, w, hw, f + 1, hf, r => by
    have ih := rVal_text v hv f (by omega) (post ++ (w ++ 0x5D :: r))
      (notNum_ws hpost (notNum_ws hw (notNum_cons (by decide))))
    rw [JElems.text, List.nil_append, rElems, ih]
    simp only [rWs_append hpost, rWs_skip hw (not_ws_iff (c := 0x5D) (by decide)), ite_true, JElems.strip]
  | v, .cons pre v' post' tl, hv, htl, post, hpost, w, hw, f + 1, hf, r => by
    obtain ⟨hpre, hv', hpost', htl⟩ := htl
    obtain ⟨c, x, hx, hc, _⟩ := text_first hv'
    have ih := rVal_text v hv f (by omega) (post ++ (0x2C :: (pre ++ (v'.text ++ (post' ++ (tl.text ++ (w ++ 0x5D :: r)))))))
      (notNum_ws hpost (notNum_cons (by decide)))
    have ih2 := rElems_text v' tl hv' htl post' hpost' w hw f (by
      simp only [JElems.text, List.length_cons, List.length_append] at hf ⊢
      omega) r
    rw [JElems.text]
    simp only [List.append_assoc, List.cons_append]
    rw [rElems, ih]
    simp only [rWs_append hpost, rWs_cons (not_ws_iff (c := 0x2C) (by decide)), rWs_append hpre]
    rw [if_neg (by decide), if_pos trivial]
    rw [hx] at ih2 ⊢
    rw [List.cons_append, rWs_cons hc, ← List.cons_append, ih2]
    rfl
theorem rMems_text : (n pc qc : Bytes) → (v : JVal) → (tl : JMems) → IsStrBody n → IsWs pc → IsWs qc → v.WF → tl.WFt false →
    (post : Bytes) → IsWs post → (w : Bytes) → IsWs w → (f : Nat) → v.text.length + (post.length + tl.text.length) + 1 ≤ f →
    (r : Bytes) →
    rMems f (0x22 :: (n ++ 0x22 :: (pc ++ 0x3A :: (qc ++ (v.text ++ (post ++ (tl.text ++ (w ++ 0x7D :: r))))))))
      = some (.cons [] n [] [] v.strip [] tl.strip, r)
  | _, _, _, _, _, _, _, _, _, _, _, _, _, _, 0, hf, _ => by omega
  | n, pc, qc, v, .nil, hn, hpc, hqc, hv, _, post, hpost, w, hw, f + 1, hf, r => by
    obtain ⟨c, x, hx, hc, _⟩ := text_first hv
    have ih := rVal_text v hv f (by omega) (post ++ (w ++ 0x7D :: r))
      (notNum_ws hpost (notNum_ws hw (notNum_cons (by decide))))
    rw [JMems.text, List.nil_append, rMems, if_pos rfl, rStr_body hn]
    simp only [rWs_skip hpc (not_ws_iff (c := 0x3A) (by decide)), ite_true, rWs_append hqc]
    have h2 : rWs (v.text ++ (post ++ (w ++ 0x7D :: r))) = v.text ++ (post ++ (w ++ 0x7D :: r)) := by
      rw [hx, List.cons_append, rWs_cons hc]
    rw [h2, ih]
    simp only [rWs_append hpost, rWs_skip hw (not_ws_iff (c := 0x7D) (by decide)), ite_true, JMems.strip]
  | n, pc, qc, v, .cons pre n' pc' qc' v' post' tl, hn, hpc, hqc, hv, htl, post, hpost, w, hw, f + 1, hf, r => by
    obtain ⟨hpre, hn', hpc', hqc', hv', hpost', htl⟩ := htl
    obtain ⟨c, x, hx, hc, _⟩ := text_first hv
    have ih2 := rMems_text n' pc' qc' v' tl hn' hpc' hqc' hv' htl post' hpost' w hw f (by
      simp only [JMems.text, List.length_cons, List.length_append] at hf ⊢
      omega) r
    rw [JMems.text]
    simp only [List.append_assoc, List.cons_append]
    generalize hR : (0x22 :: (n' ++ 0x22 :: (pc' ++ 0x3A :: (qc' ++ (v'.text ++ (post' ++ (tl.text ++ (w ++ 0x7D :: r)))))))) = R
      at ih2 ⊢
    have hws : rWs R = R := by
      rw [← hR]
      exact rWs_cons (not_ws_iff (by decide))
    have ih := rVal_text v hv f (by omega) (post ++ (0x2C :: (pre ++ R))) (notNum_ws hpost (notNum_cons (by decide)))
    rw [rMems, if_pos rfl, rStr_body hn]
    simp only [rWs_skip hpc (not_ws_iff (c := 0x3A) (by decide)), ite_true, rWs_append hqc]
    have h2 : rWs (v.text ++ (post ++ (0x2C :: (pre ++ R)))) = v.text ++ (post ++ (0x2C :: (pre ++ R))) := by
      rw [hx, List.cons_append, rWs_cons hc]
    rw [h2, ih]
    simp only [rWs_append hpost, rWs_cons (not_ws_iff (c := 0x2C) (by decide)), rWs_append hpre]
    rw [if_neg (by decide), if_pos trivial, hws, ih2]
    rfl
end

/-- A text is the text of at most one document, up to whitespace. -/
theorem text_unique {d d' : JVal} (h : d.WF) (h' : d'.WF) (ht : d.text = d'.text) : d.strip = d'.strip := by
  have h1 := rVal_text d h _ (Nat.le_refl _) [] (by intro c hc; cases hc)
  have h2 := rVal_text d' h' _ (Nat.le_refl _) [] (by intro c hc; cases hc)
  rw [ht, h2] at h1
  injection h1 with h1
  injection h1 with h1
  exact h1.symm

theorem rDoc_json {bs : Bytes} (h : IsJson bs) : ∃ d, rDoc bs = some d := by
  obtain ⟨v, w1, w2, hv, hw1, hw2, rfl⟩ := h
  obtain ⟨c, x, hx, hc, _⟩ := text_first hv
  refine ⟨v.strip, ?_⟩
  have := rVal_text v hv (w1 ++ (v.text ++ w2)).length (by simp; omega) w2
    (by have := notNum_ws (r := []) hw2 (by intro c hc; cases hc); rwa [List.append_nil] at this)
  have h2 : rWs (w1 ++ (v.text ++ w2)) = v.text ++ w2 := by
    rw [rWs_append hw1, hx, List.cons_append, rWs_cons hc]
  rw [rDoc, h2, this]
  simp [rWs_all hw2]

theorem not_json {bs : Bytes} (h : rDoc bs = none) : ¬ IsJson bs := by
  intro h'
  obtain ⟨d, hd⟩ := rDoc_json h'
  rw [h] at hd
  cases hd

end Verif
