import Verif.Proof.Iter

/-!
# Proofs about splitting JSON lines documents
-/

namespace Verif

open Verif.Spec

/-! ## The pieces -/

theorem trimSuffix_split (sp : UInt8 → Bool) (bs : Bytes) :
    ∃ g, bs = trimSuffix sp bs ++ g ∧ (∀ c ∈ g, sp c = true) := by
  refine ⟨(bs.reverse.takeWhile sp).reverse, ?_, ?_⟩
  · unfold trimSuffix
    rw [← List.reverse_append, List.takeWhile_append_dropWhile, List.reverse_reverse]
  · intro c hc
    rw [List.mem_reverse] at hc
    have := List.all_takeWhile (p := sp) (l := bs.reverse)
    exact List.all_eq_true.1 this c hc

theorem toLineEnd_pos : (bs : Bytes) → bs ≠ [] → 0 < toLineEnd bs
  | [], h => absurd rfl h
  | c :: cs, _ => by unfold toLineEnd; split <;> omega

/-- The line end is behind a newline, or at the end of the text. -/
theorem toLineEnd_spec : (bs : Bytes) → bs ≠ [] →
    (bs.take (toLineEnd bs)).getLast? = some chNl ∨ bs.length = toLineEnd bs
  | [], h => absurd rfl h
  | c :: cs, _ => by
    unfold toLineEnd
    split
    · rename_i h
      subst h
      left; simp
    · by_cases hcs : cs = []
      · subst hcs; right; rfl
      · rcases toLineEnd_spec cs hcs with h | h
        · left
          rw [List.take_succ_cons, List.getLast?_cons, h]
          rfl
        · right; simp [h]

theorem toLineEnd_le : (bs : Bytes) → toLineEnd bs ≤ bs.length
  | [] => by simp [toLineEnd]
  | c :: cs => by
    unfold toLineEnd
    have := toLineEnd_le cs
    split <;> simp
    omega

/-- One round of the loop: a piece `p` is cut off the front. -/
theorem partLoop_step (sp : UInt8 → Bool) (seg n : Nat) (doc : Bytes) (hne : doc ≠ []) :
    (doc.length ≤ seg ∧ partLoop sp seg (n + 1) doc = [doc]) ∨
    ∃ p q, doc = p ++ q ∧ seg < p.length ∧ (p.getLast? = some chNl ∨ q = []) ∧
      partLoop sp seg (n + 1) doc = (if trimSuffix sp p = [] then [] else [trimSuffix sp p]) ++ partLoop sp seg n q := by
  rw [show partLoop sp seg (n + 1) doc = _ from rfl]
  simp only [partLoop]
  have h0 : doc.isEmpty = false := by cases doc <;> simp_all
  by_cases h1 : doc.length ≤ seg
  · left
    simp [h0, h1]
  · right
    have hdn : doc.drop seg ≠ [] := by
      intro h
      rw [List.drop_eq_nil_iff] at h
      omega
    have hp := toLineEnd_pos _ hdn
    have hle := toLineEnd_le (doc.drop seg)
    rw [List.length_drop] at hle
    refine ⟨doc.take (seg + toLineEnd (doc.drop seg)), doc.drop (seg + toLineEnd (doc.drop seg)), (List.take_append_drop ..).symm, ?_, ?_, ?_⟩
    · rw [List.length_take]; omega
    · rcases toLineEnd_spec _ hdn with h | h
      · left
        rw [List.take_add, List.getLast?_append, h]
        rfl
      · right
        rw [List.length_drop] at h
        rw [List.drop_eq_nil_iff]
        omega
    · simp only [h0, Bool.false_eq_true, if_false, h1, List.isEmpty_iff]
      split <;> simp

theorem partLoop_nil (sp : UInt8 → Bool) (seg n : Nat) : partLoop sp seg n [] = [] := by
  cases n <;> simp [partLoop]

/-- What the loop makes of the text. -/
theorem partLoop_pieces (sp : UInt8 → Bool) (seg n : Nat) : (doc : Bytes) → doc.length ≤ n →
    ∃ ps : List (Bytes × Bytes), doc = ps.flatMap (fun p => p.1 ++ p.2) ∧
      partLoop sp seg n doc = (ps.map Prod.fst).filter (fun c => !c.isEmpty) ∧
      (∀ p ∈ ps, ∀ c ∈ p.2, sp c = true) ∧
      (∀ p ∈ ps.dropLast, (p.1 ++ p.2).getLast? = some chNl) ∧
      ps.length * (seg + 1) ≤ doc.length + seg := by
  induction n with
  | zero =>
    intro doc h
    have : doc = [] := List.length_eq_zero_iff.1 (by omega)
    subst this
    exact ⟨[], rfl, by simp [partLoop_nil], by simp, by simp, by simp⟩
  | succ n ih =>
    intro doc h
    by_cases hne : doc = []
    · subst hne
      exact ⟨[], rfl, by simp [partLoop_nil], by simp, by simp, by simp⟩
    have hpos : 0 < doc.length := List.length_pos_iff.2 hne
    rcases partLoop_step sp seg n doc hne with ⟨h1, h2⟩ | ⟨p, q, rfl, h1, h2, h3⟩
    · refine ⟨[(doc, [])], by simp, ?_, by simp, by simp, ?_⟩
      · rw [h2]; simp [hne]
      · simp only [List.length_cons, List.length_nil]; omega
    · obtain ⟨g, h4, h5⟩ := trimSuffix_split sp p
      obtain ⟨ps, h6, h7, h8, h9, h10⟩ := ih q (by rw [List.length_append] at h; omega)
      refine ⟨(trimSuffix sp p, g) :: ps, ?_, ?_, ?_, ?_, ?_⟩
      · rw [List.flatMap_cons, ← h4, ← h6]
      · rw [h3, h7]
        simp only [List.map_cons, List.filter_cons, Bool.not_eq_true', List.isEmpty_eq_false_iff, ne_eq, ite_not]
        split <;> rfl
      · intro x hx
        rcases List.mem_cons.1 hx with rfl | hx
        · exact h5
        · exact h8 x hx
      · intro x hx
        rcases h2 with h2 | rfl
        · cases ps with
          | nil => simp at hx
          | cons y ys =>
            rw [List.dropLast_cons_of_ne_nil (by simp)] at hx
            rcases List.mem_cons.1 hx with rfl | hx
            · rw [← h4]; exact h2
            · exact h9 x hx
        · cases ps with
          | nil => simp at hx
          | cons y ys =>
            simp only [List.length_nil, Nat.zero_add, List.length_cons, Nat.succ_mul] at h10
            exact absurd h10 (by omega)
      · rw [List.length_append, List.length_cons, Nat.succ_mul]; omega

theorem partLoop_count (sp : UInt8 → Bool) (n : Nat) (hn : 0 < n) (doc : Bytes) :
    (partLoop sp (doc.length / n) doc.length doc).length ≤ n := by
  obtain ⟨ps, -, h1, -, -, h2⟩ := partLoop_pieces sp (doc.length / n) doc.length doc (Nat.le_refl _)
  have h3 : (partLoop sp (doc.length / n) doc.length doc).length ≤ ps.length := by
    rw [h1]
    exact Nat.le_trans (List.length_filter_le _ _) (by simp)
  refine Nat.le_trans h3 ?_
  have h4 : doc.length < n * (doc.length / n + 1) := by
    have h5 := Nat.div_add_mod doc.length n
    have h6 := Nat.mod_lt doc.length hn
    rw [Nat.mul_succ]; omega
  generalize doc.length / n = s at h2 h4
  have h7 : ps.length * (s + 1) < (n + 1) * (s + 1) := by rw [Nat.succ_mul]; omega
  exact Nat.lt_succ_iff.1 (Nat.lt_of_mul_lt_mul_right h7)

/-! ## The values -/

/-- A number has no whitespace in it. -/
theorem number_chars {n : Bytes} (h : IsNumber n) : ∀ c ∈ n, 33 ≤ c.toNat := by
  have dig : ∀ {c : UInt8}, IsDig c → 33 ≤ c.toNat := by
    intro c h
    simp only [IsDig, UInt8.le_iff_toNat_le] at h
    have : (0x30 : UInt8).toNat = 48 := rfl
    omega
  obtain ⟨m, i, f, e, hm, hi, hf, he, rfl⟩ := h
  intro c hc
  simp only [List.mem_append] at hc
  rcases hc with hc | hc | hc | hc
  · rcases hm with rfl | rfl
    · simp at hc
    · simp at hc; subst hc; decide
  · exact dig ((isInt_digits hi).2 c hc)
  · rcases hf with rfl | ⟨ds, hds, rfl⟩
    · simp at hc
    · rcases List.mem_cons.1 hc with rfl | hc
      · decide
      · exact dig (hds.2 c hc)
  · rcases he with rfl | ⟨x, sg, ds, hx, hs, hds, rfl⟩
    · simp at hc
    · rcases List.mem_cons.1 hc with rfl | hc
      · rcases hx with rfl | rfl <;> decide
      · rcases List.mem_append.1 hc with hc | hc
        · rcases hs with rfl | rfl | rfl
          · simp at hc
          · simp at hc; subst hc; decide
          · simp at hc; subst hc; decide
        · exact dig (hds.2 c hc)

/-- A value ends in something other than whitespace. -/
theorem text_last_not_ws (d : JVal) (hd : d.WF) : ∃ t c, d.text = t ++ [c] ∧ isSpace c = false := by
  match d with
  | .null => exact ⟨[0x6E, 0x75, 0x6C], 0x6C, rfl, by decide⟩
  | .tru => exact ⟨[0x74, 0x72, 0x75], 0x65, rfl, by decide⟩
  | .fls => exact ⟨[0x66, 0x61, 0x6C, 0x73], 0x65, rfl, by decide⟩
  | .num t =>
    have hne : t ≠ [] := by
      rintro rfl
      have := text_length_pos (d := .num []) hd
      simp [JVal.text] at this
    refine ⟨t.dropLast, t.getLast hne, (List.dropLast_concat_getLast hne).symm, ?_⟩
    have : IsNumber t := hd
    have hc := number_chars this _ (List.getLast_mem hne)
    rw [Bool.eq_false_iff, Ne, isSpace_iff]
    omega
  | .str b => exact ⟨0x22 :: b, 0x22, rfl, by decide⟩
  | .arr w .nil => exact ⟨0x5B :: w, 0x5D, by simp [JVal.text], by decide⟩
  | .arr w (.cons pre v post tl) =>
    exact ⟨0x5B :: (pre ++ (v.text ++ (post ++ (tl.text ++ w)))), 0x5D, by simp [JVal.text], by decide⟩
  | .obj w .nil => exact ⟨0x7B :: w, 0x7D, by simp [JVal.text], by decide⟩
  | .obj w (.cons pre n pc qc v post tl) =>
    exact ⟨0x7B :: (pre ++ (0x22 :: (n ++ (0x22 :: (pc ++ (0x3A :: (qc ++ (v.text ++ (post ++ (tl.text ++ w)))))))))), 0x7D,
      by simp [JVal.text], by decide⟩

theorem linesDoc_empty {ds : List JVal} (hwf : ∀ d ∈ ds, d.WF) (h : LinesDoc ds []) : ds = [] := by
  generalize hx : ([] : Bytes) = x at h
  cases h with
  | nil => rfl
  | @cons w d ds rest h1 h2 h3 =>
    have := text_length_pos (hwf d (by simp))
    have h4 := congrArg List.length hx
    simp only [List.length_nil, List.length_append] at h4
    omega

/-- Two ways to cut a text in two. -/
theorem append_cases {p q a b : Bytes} (h : p ++ q = a ++ b) :
    (∃ m, a = p ++ m ∧ q = m ++ b) ∨ (∃ m, p = a ++ m ∧ b = m ++ q) := by
  rcases List.append_eq_append_iff.1 h with ⟨m, h1, h2⟩ | ⟨m, h1, h2⟩
  · exact Or.inl ⟨m, h1, h2⟩
  · exact Or.inr ⟨m, h1, h2⟩

/-- Whitespace cut off behind. -/
theorem linesDoc_trimmed {ds : List JVal} {doc : Bytes} (h : LinesDoc ds doc) (hwf : ∀ d ∈ ds, d.WF) :
    ∀ p q, doc = p ++ q → (∀ c ∈ q, isSpace c = true) → LinesDoc ds p := by
  induction h with
  | nil hw =>
    rintro p q rfl -
    exact .nil (isWs_append hw).1
  | @cons w d ds rest h1 h2 h3 ih =>
    intro p q hpq hq
    obtain ⟨t, c, ht, hc⟩ := text_last_not_ws d (hwf d (by simp))
    have key : ∀ m : Bytes, c ∈ m → (∀ c ∈ m, isSpace c = true) → False := fun m hm h => by
      rw [h c hm] at hc; cases hc
    rcases append_cases hpq.symm with ⟨m, -, h5⟩ | ⟨m, rfl, h5⟩
    · subst h5
      exact absurd hq fun h => key d.text (by rw [ht]; simp) fun x hx => h x (by simp [hx])
    · rcases append_cases h5.symm with ⟨m', h6, h7⟩ | ⟨m', h6, h7⟩
      · subst h7
        cases hm' : m' with
        | nil =>
          subst hm'
          rw [List.append_nil] at h6
          subst h6
          have h8 : LinesDoc ds [] := ih (fun d hd => hwf d (by simp [hd])) [] rest rfl fun x hx => hq x (by simpa using hx)
          have := linesDoc_empty (fun d hd => hwf d (by simp [hd])) h8
          subst this
          have := LinesDoc.cons (d := d) h1 h8 (Or.inl rfl)
          simpa using this
        | cons x xs =>
          exfalso
          refine key m' ?_ fun y hy => hq y (by simp [hy])
          have hne : m' ≠ [] := by simp [hm']
          have h9 : (m ++ m').getLast? = some c := by rw [← h6, ht]; simp
          rw [List.getLast?_append, List.getLast?_eq_some_getLast hne] at h9
          simp only [Option.some_or, Option.some.injEq] at h9
          rw [← h9]
          exact List.getLast_mem hne
      · subst h6
        refine .cons h1 (ih (fun d hd => hwf d (by simp [hd])) m' q h7 hq) ?_
        rcases h3 with h3 | ⟨x, xs, h3, h8⟩
        · left
          rw [h3] at h7
          exact (List.append_eq_nil_iff.1 h7.symm).1
        · cases m' with
          | nil => exact Or.inl rfl
          | cons y ys =>
            rw [h3] at h7
            simp only [List.cons_append, List.cons.injEq] at h7
            exact Or.inr ⟨y, ys, rfl, by rw [← h7.1]; exact h8⟩

/-- A cut behind a newline goes through no value. -/
theorem linesDoc_split {ds : List JVal} {doc : Bytes} (h : LinesDoc ds doc) (hnl : ∀ d ∈ ds, chNl ∉ d.text) :
    ∀ p q, doc = p ++ q → (p = [] ∨ p.getLast? = some chNl ∨ q = []) →
      ∃ ds1 ds2, ds = ds1 ++ ds2 ∧ LinesDoc ds1 p ∧ LinesDoc ds2 q := by
  induction h with
  | nil hw =>
    rintro p q rfl -
    exact ⟨[], [], rfl, .nil (isWs_append hw).1, .nil (isWs_append hw).2⟩
  | @cons w d ds rest h1 h2 h3 ih =>
    intro p q hpq hp
    rcases append_cases hpq.symm with ⟨m, h4, h5⟩ | ⟨m, h4, h5⟩
    · subst h4 h5
      exact ⟨[], d :: ds, rfl, .nil (isWs_append h1).1, .cons (isWs_append h1).2 h2 h3⟩
    · rcases append_cases h5.symm with ⟨m', h6, h7⟩ | ⟨m', h6, h7⟩
      · by_cases hm : m = []
        · subst hm
          rw [List.append_nil] at h4
          subst h4 h7
          refine ⟨[], d :: ds, rfl, .nil h1, ?_⟩
          have := LinesDoc.cons (d := d) (w := []) (by intro c hc; cases hc) h2 h3
          simpa [h6] using this
        by_cases hm' : m' = []
        · subst hm'
          rw [List.append_nil] at h6
          rw [List.nil_append] at h7
          subst h4 h6 h7
          refine ⟨[d], ds, rfl, ?_, h2⟩
          have := LinesDoc.cons (d := d) h1 (LinesDoc.nil (w := []) (by intro c hc; cases hc)) (Or.inl rfl)
          simpa using this
        · exfalso
          rcases hp with hp | hp | hp
          · rw [hp] at h4
            exact hm (List.append_eq_nil_iff.1 h4.symm).2
          · rw [h4, List.getLast?_append, List.getLast?_eq_some_getLast hm] at hp
            simp only [Option.some_or, Option.some.injEq] at hp
            apply hnl d (by simp)
            rw [h6, ← hp]
            exact List.mem_append_left _ (List.getLast_mem hm)
          · rw [hp] at h7
            exact hm' (List.append_eq_nil_iff.1 h7.symm).1
      · have hp' : m' = [] ∨ m'.getLast? = some chNl ∨ q = [] := by
          by_cases hm' : m' = []
          · exact Or.inl hm'
          · rcases hp with hp | hp | hp
            · rw [hp, h6] at h4
              have := (List.append_eq_nil_iff.1 h4.symm).2
              exact Or.inl (List.append_eq_nil_iff.1 this).2
            · rw [h4, h6, List.getLast?_append, List.getLast?_append, List.getLast?_eq_some_getLast hm'] at hp
              right; left
              rw [List.getLast?_eq_some_getLast hm']
              simpa using hp
            · exact Or.inr (Or.inr hp)
        obtain ⟨ds1, ds2, h8, h9, h10⟩ := ih (fun d hd => hnl d (by simp [hd])) m' q h7 hp'
        subst h4 h6 h8
        refine ⟨d :: ds1, ds2, rfl, .cons h1 h9 ?_, h10⟩
        rcases h3 with h3 | ⟨x, xs, h3, h8⟩
        · left
          rw [h3] at h7
          exact (List.append_eq_nil_iff.1 h7.symm).1
        · cases m' with
          | nil => exact Or.inl rfl
          | cons y ys =>
            rw [h3] at h7
            simp only [List.cons_append, List.cons.injEq] at h7
            exact Or.inr ⟨y, ys, rfl, by rw [← h7.1]; exact h8⟩

/-- The loop deals out the values. -/
theorem partLoop_values {sp : UInt8 → Bool} (hsp : ∀ c, sp c = true → isSpace c = true) (seg n : Nat) :
    (doc : Bytes) → doc.length ≤ n → (ds : List JVal) → (∀ d ∈ ds, d.WF ∧ chNl ∉ d.text) → LinesDoc ds doc →
    ∃ dss : List (List JVal), dss.flatten = ds ∧ dss.length = (partLoop sp seg n doc).length ∧
      ∀ (i : Nat) (c : Bytes) (cs : List JVal), (partLoop sp seg n doc)[i]? = some c → dss[i]? = some cs → LinesDoc cs c := by
  induction n with
  | zero =>
    intro doc h ds hds hl
    have : doc = [] := List.length_eq_zero_iff.1 (by omega)
    subst this
    have := linesDoc_empty (fun d hd => (hds d hd).1) hl
    subst this
    exact ⟨[], rfl, by simp [partLoop_nil], by simp⟩
  | succ n ih =>
    intro doc h ds hds hl
    by_cases hne : doc = []
    · subst hne
      have := linesDoc_empty (fun d hd => (hds d hd).1) hl
      subst this
      exact ⟨[], rfl, by simp [partLoop_nil], by simp⟩
    rcases partLoop_step sp seg n doc hne with ⟨h1, h2⟩ | ⟨p, q, rfl, h1, h2, h3⟩
    · refine ⟨[ds], by simp, by simp [h2], ?_⟩
      rw [h2]
      intro i c cs hc hcs
      cases i with
      | zero => simp at hc hcs; subst hc hcs; exact hl
      | succ i => simp at hc
    · obtain ⟨g, h4, h5⟩ := trimSuffix_split sp p
      obtain ⟨ds1, ds2, rfl, h6, h7⟩ := linesDoc_split hl (fun d hd => (hds d hd).2) p q rfl (Or.inr h2)
      have h8 := linesDoc_trimmed h6 (fun d hd => (hds d (by simp [hd])).1) _ _ h4 fun c hc => hsp c (h5 c hc)
      obtain ⟨dss, h9, h10, h11⟩ := ih q (by rw [List.length_append] at h; omega) ds2
        (fun d hd => hds d (by simp [hd])) h7
      by_cases hc : trimSuffix sp p = []
      · rw [hc] at h8
        have := linesDoc_empty (fun d hd => (hds d (by simp [hd])).1) h8
        subst this
        rw [h3, if_pos hc]
        exact ⟨dss, h9, h10, h11⟩
      · rw [h3, if_neg hc]
        refine ⟨ds1 :: dss, by simp [h9], by simp [h10], ?_⟩
        intro i c cs hi hcs
        cases i with
        | zero => simp at hi hcs; subst hi hcs; exact h8
        | succ i => simp at hi hcs; exact h11 i c cs hi hcs

end Verif
