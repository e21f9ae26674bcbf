import Verif.Proof.Value

/-!
# Lookup by name and index, and paths
-/

namespace Verif

open Spec

variable {t : TCfg}

abbrev Item := Option Bytes × JVal

/-- The value is the item, followed by what may follow it. -/
def ItemAt (p : Item) (q : Option Bytes × JV) : Prop := q.1 = p.1 ∧ ∃ k, q.2 = p.2.text ++ k ∧ AfterValue k ∧ k ≠ []

theorem iterAll_cur : ∀ (items : List Item) (it : JIter), Cur t items it →
    ∃ ps, iterAll t it = .ok ps ∧ ps.length = items.length ∧ ∀ (i : Nat) (p : Item), items[i]? = some p → ∃ q, ps[i]? = some q ∧ ItemAt p q
  | [], it, h => by
    refine ⟨[], ?_, rfl, by simp⟩
    unfold iterAll
    rw [h.1]
    rfl
  | (n, d) :: tl, it, h => by
    obtain ⟨hg, hn, ⟨k, hk, hka, hkn⟩, it', hnext, hlt, hcur⟩ := h
    obtain ⟨ps, h1, h2, h3⟩ := iterAll_cur tl it' hcur
    refine ⟨(n, d.text ++ k) :: ps, ?_, by simp [h2], ?_⟩
    · unfold iterAll
      simp only [hg, hk, hnext, Res.ok_bind, if_neg (by decide : ¬ true = false), dif_pos hlt, h1]
    · intro i p hp
      cases i with
      | zero =>
        simp only [List.getElem?_cons_zero, Option.some.injEq] at hp
        subst hp
        exact ⟨_, rfl, rfl, k, rfl, hka, hkn⟩
      | succ i => simpa using h3 i p (by simpa using hp)

theorem findIf_cur (p : Bytes → Bool) : ∀ (items : List Item) (it : JIter), Cur t items it →
    ∃ r, findIf t p it = .ok r ∧
      match items.dropWhile (fun q => !p (q.1.getD [])) with
      | [] => r = none
      | x :: xs => ∃ it', r = some it' ∧ Cur t (x :: xs) it'
  | [], it, h => by
    refine ⟨none, ?_, rfl⟩
    unfold findIf
    rw [h.1]
    rfl
  | (n, d) :: tl, it, h => by
    have hc := h
    obtain ⟨hg, hn, ⟨k, hk, hka, hkn⟩, it', hnext, hlt, hcur⟩ := h
    by_cases hp : p (n.getD []) = true
    · refine ⟨some it, ?_, ?_⟩
      · unfold findIf
        simp only [hg, hk, Res.ok_bind, if_neg (by decide : ¬ true = false), hp, if_true]
      · simp only [List.dropWhile_cons, hp, Bool.not_true, Bool.false_eq_true, if_false]
        exact ⟨it, rfl, hc⟩
    · obtain ⟨r, hr, hm⟩ := findIf_cur p tl it' hcur
      refine ⟨r, ?_, ?_⟩
      · unfold findIf
        simp only [hg, hk, Res.ok_bind, if_neg (by decide : ¬ true = false), if_neg hp, hnext, dif_pos hlt, hr]
      · simp only [List.dropWhile_cons, Bool.not_eq_true] at hp ⊢
        simpa only [hp, Bool.not_false, if_true] using hm

theorem advance_cur : ∀ (items : List Item) (n : Nat) (it : JIter), Cur t items it →
    ∃ it', advance t n it = .ok (n - items.length, it') ∧ Cur t (items.drop n) it'
  | items, 0, it, h => by
    refine ⟨it, ?_, h⟩
    have : ∃ b, it.good = .ok b := by
      cases items with
      | nil => exact ⟨_, h.1⟩
      | cons p _ => obtain ⟨n, d⟩ := p; exact ⟨_, h.1⟩
    obtain ⟨b, hb⟩ := this
    simp [advance, hb]
  | [], n + 1, it, h => by
    refine ⟨it, ?_, h⟩
    simp [advance, h.1]
  | (m, d) :: tl, n + 1, it, h => by
    obtain ⟨hg, -, -, it', hnext, -, hcur⟩ := h
    obtain ⟨r, h1, h2⟩ := advance_cur tl n it' hcur
    refine ⟨r, ?_, by simpa using h2⟩
    simp [advance, hg, hnext, h1]

theorem next_opener {it it' : JIter} (h : it.next t = .ok it') : it'.opener = it.opener := by
  unfold JIter.next at h
  cases hg : it.good with
  | err => simp [hg] at h
  | ub => simp [hg] at h
  | ok g =>
    rw [hg] at h
    cases g with
    | false => simp at h; rw [← h]
    | true =>
      simp only [Res.ok_bind, if_true] at h
      generalize (if it.opener = chLBrace then _ else _ : Res Bytes) = r at h
      cases r with
      | err => simp at h
      | ub => simp at h
      | ok b =>
        simp only [Res.ok_bind] at h
        cases hs : skipValue t.cfg false b with
        | err => simp [hs] at h
        | ub => simp [hs] at h
        | ok p =>
          simp only [hs, Res.ok_bind] at h
          cases hm : moveNext t.cfg p.2 with
          | err => simp [hm] at h
          | ub => simp [hm] at h
          | ok c => simp [hm] at h; rw [← h]

theorem advance_opener {n m : Nat} {it it' : JIter} (h : advance t n it = .ok (m, it')) : it'.opener = it.opener := by
  induction n generalizing it with
  | zero =>
    unfold advance at h
    cases hg : it.good <;> simp [hg] at h
    rw [h.2]
  | succ n ih =>
    unfold advance at h
    cases hg : it.good with
    | err => simp [hg] at h
    | ub => simp [hg] at h
    | ok g =>
      cases g with
      | false => simp [hg] at h; rw [h.2]
      | true =>
        simp only [hg, Res.ok_bind, if_true] at h
        cases hn : it.next t with
        | err => simp [hn] at h
        | ub => simp [hn] at h
        | ok i2 =>
          simp only [hn, Res.ok_bind] at h
          rw [ih h, next_opener hn]

/-- The value of the member with a given name. -/
theorem lookup_dropWhile (l : List (Bytes × JVal)) (n : Bytes) :
    match (l.map fun p => (some p.1, p.2)).dropWhile (fun q : Item => !(q.1.getD [] == n)) with
    | [] => l.lookup n = none
    | x :: _ => x.1 = some n ∧ l.lookup n = some x.2 := by
  induction l with
  | nil => simp
  | cons p ps ih =>
    obtain ⟨a, b⟩ := p
    by_cases h : a = n
    · subst h; simp
    · have h1 : (a == n) = false := by simpa using h
      have h2 : (n == a) = false := by simpa using fun hh => h hh.symm
      simp only [List.map_cons, List.dropWhile_cons, Option.getD_some, h1, Bool.not_false, if_true, List.lookup_cons, h2]
      exact ih

theorem filter_bslash_ne {cs : Bytes} (hne : cs ≠ []) (hl : cs.getLast? ≠ some chBslash) : cs.filter (fun c => c != chBslash) ≠ [] := by
  intro hf
  rw [List.filter_eq_nil_iff] at hf
  obtain ⟨x, hx⟩ : ∃ x, cs.getLast? = some x := ⟨_, List.getLast?_eq_some_getLast hne⟩
  have := hf x (List.mem_of_getLast? hx)
  simp only [bne_iff_ne, ne_eq, Decidable.not_not] at this
  subst this
  exact hl hx

/-- The comparison of names: up to backslashes in the name looked for. -/
theorem escMatch_iff (cs ds : Bytes) (hl : cs.getLast? ≠ some chBslash) :
    escMatch cs ds = (ds == cs.filter (fun c => c != chBslash)) := by
  fun_induction escMatch cs ds with
  | case1 cs d ds ih =>
    have h1 : cs.getLast? ≠ some chBslash := by
      intro h; apply hl; rw [List.getLast?_cons, h]; simp
    rw [ih h1]
    simp
  | case2 c cs d ds h1 h2 =>
    have hd : (d == c) = false := by simpa using fun h => h2 h.symm
    simp [h1, List.cons_beq_cons, hd]
  | case3 c cs d ds h1 h2 ih =>
    have hl' : cs.getLast? ≠ some chBslash := by
      intro h; apply hl; rw [List.getLast?_cons, h]; simp
    have h2 : c = d := by simpa using h2
    subst h2
    rw [ih hl']
    simp [h1, List.cons_beq_cons]
  | case4 => simp
  | case5 cs ds h1 h2 =>
    match cs, ds with
    | [], [] => exact absurd rfl (h2 rfl)
    | [], d :: ds => simp
    | c :: cs, [] =>
      have := filter_bslash_ne (by simp) hl
      obtain ⟨y, ys, hy⟩ := List.exists_cons_of_ne_nil this
      rw [hy]
      rfl
    | c :: cs, d :: ds => exact absurd rfl (h1 c cs d ds rfl)

/-- How the name looked for is compared. -/
theorem nameTest (name : Bytes) (hl : name.getLast? ≠ some chBslash) :
    (if name.contains chBslash then escMatch name else fun n => n == name) =
      fun n => n == name.filter (fun c => c != chBslash) := by
  funext n
  split
  · exact escMatch_iff name n hl
  · rename_i h
    have : name.filter (fun c => c != chBslash) = name := by
      rw [List.filter_eq_self]
      intro c hc
      simp only [bne_iff_ne, ne_eq]
      rintro rfl
      exact h (by simpa using hc)
    rw [this]

/-- `find_class_member` on an object. -/
theorem findClassMember_obj (hck : t.cfg.checked = true) {w : Bytes} {ms : JMems} (hd : DOk false (.obj w ms))
    (hn : (JVal.obj w ms).NamesOk t.escNames) (k name : Bytes) (hl : name.getLast? ≠ some chBslash) :
    (ms.get? (name.filter (fun c => c != chBslash)) = none → findClassMember t ((JVal.obj w ms).text ++ k) name = .ok []) ∧
    (∀ e, ms.get? (name.filter (fun c => c != chBslash)) = some e →
      ∃ k', findClassMember t ((JVal.obj w ms).text ++ k) name = .ok (e.text ++ k') ∧ AfterValue k' ∧ k' ≠ []) := by
  obtain ⟨it, h1, h2⟩ := jvBegin_cur hck (by rfl) hd hn k
  obtain ⟨r, h3, h4⟩ := findIf_cur (fun n => n == name.filter (fun c => c != chBslash)) _ _ h2
  have h5 := lookup_dropWhile ms.toList (name.filter (fun c => c != chBslash))
  simp only [JVal.items] at h4
  have hrun : findClassMember t ((JVal.obj w ms).text ++ k) name =
      (match (generalizing := false) r with | none => .ok [] | some it => do let (_, v) ← it.get t; .ok v : Res JV) := by
    unfold findClassMember
    rw [jvType_text _ hd.wf, nameTest name hl]
    simp only [Res.ok_bind, JVal.kind, ne_eq, not_true_eq_false, if_false, h1, h3]
    rfl
  rw [hrun]
  revert h4 h5
  cases (List.map (fun p => (some p.1, p.2)) ms.toList).dropWhile
    (fun q : Item => !(q.1.getD [] == name.filter (fun c => c != chBslash))) with
  | nil =>
    rintro h4 h5
    subst h4
    refine ⟨fun _ => rfl, fun e he => ?_⟩
    rw [JMems.get?, h5] at he
    simp at he
  | cons x xs =>
    rintro ⟨it', rfl, hcur⟩ ⟨-, h5⟩
    obtain ⟨n, d⟩ := x
    obtain ⟨hg, -, ⟨k', hk, hka, hkn⟩, -⟩ := hcur
    refine ⟨fun he => ?_, fun e he => ?_⟩
    · rw [JMems.get?, h5] at he; simp at he
    · rw [JMems.get?, h5] at he
      simp only [Option.some.injEq] at he
      subst he
      exact ⟨k', by simp [hk], hka, hkn⟩

/-- `find_class_member` on anything else. -/
theorem findClassMember_other (cfg : TCfg) {tc : Bool} {d : JVal} (hd : d.WFt tc) (ho : d.kind ≠ .cls) (k name : Bytes) :
    findClassMember cfg (d.text ++ k) name = .ok [] := by
  unfold findClassMember
  rw [jvType_text _ hd]
  simp [ho]

/-- `find_element` inside the container. -/
theorem findElement_in (hck : t.cfg.checked = true) {d : JVal} (hc : d.isContainer = true) (hd : DOk false d)
    (hn : d.NamesOk t.escNames) (k : Bytes) (i : Nat) (n : Option Bytes) (e : JVal) (hi : d.items[i]? = some (n, e)) :
    ∃ k', findElement t (d.text ++ k) i = .ok (e.text ++ k') ∧ AfterValue k' ∧ k' ≠ [] := by
  obtain ⟨it, h1, h2⟩ := jvBegin_cur hck hc hd hn k
  obtain ⟨it', h3, h4⟩ := advance_cur _ i it h2
  have hlt : i < d.items.length := by
    rcases Nat.lt_or_ge i d.items.length with h | h
    · exact h
    · rw [List.getElem?_eq_none h] at hi; simp at hi
  have hdrop : d.items.drop i = (n, e) :: d.items.drop (i + 1) := by
    rw [List.drop_eq_getElem_cons hlt]
    rw [List.getElem?_eq_getElem hlt, Option.some.injEq] at hi
    rw [hi]
  rw [hdrop] at h4
  obtain ⟨-, -, ⟨k', hk, hka, hkn⟩, -⟩ := h4
  refine ⟨k', ?_, hka, hkn⟩
  unfold findElement
  simp [h1, h3, show i - d.items.length = 0 by omega, hk]

/-- `find_element` past the end. -/
theorem findElement_past (hck : t.cfg.checked = true) {d : JVal} (hc : d.isContainer = true) (hd : DOk false d)
    (hn : d.NamesOk t.escNames) (k : Bytes) (i : Nat) (hi : d.items.length < i) : findElement t (d.text ++ k) i = .ok [] := by
  obtain ⟨it, h1, h2⟩ := jvBegin_cur hck hc hd hn k
  obtain ⟨it', h3, h4⟩ := advance_cur _ i it h2
  unfold findElement
  simp [h1, h3, show i - d.items.length ≠ 0 by omega]

/-- `find_element` one past the last element of an array. -/
theorem findElement_end (hck : t.cfg.checked = true) {w : Bytes} {es : JElems} (hd : DOk false (.arr w es))
    (hn : (JVal.arr w es).NamesOk t.escNames) (k : Bytes) :
    ∃ k', findElement t ((JVal.arr w es).text ++ k) es.toList.length = .ok (chRBrack :: k') := by
  obtain ⟨it, h1, h2⟩ := jvBegin_cur hck (by rfl) hd hn k
  have ho : it.opener = chLBrack := by
    have : ∃ c, (JVal.arr w es).text ++ k = chLBrack :: c := by
      cases es <;> exact ⟨_, rfl⟩
    obtain ⟨c, hc⟩ := this
    rw [hc] at h1
    simp only [jvBegin, trim_ck hck, Res.ok_bind, Res.ok.injEq] at h1
    rw [← h1]
  have hlen : (JVal.arr w es).items.length = es.toList.length := by simp [JVal.items]
  obtain ⟨it', h3, h4⟩ := advance_cur _ es.toList.length it h2
  rw [hlen, Nat.sub_self] at h3
  rw [← hlen, List.drop_length] at h4
  obtain ⟨hg, x, k', hpos, hx, hop⟩ := h4
  have ho' : it'.opener = chLBrack := by
    rw [← ho]
    exact advance_opener h3
  have hx' := hop.1 ho'
  subst hx'
  refine ⟨k', ?_⟩
  unfold findElement
  simp only [h1, h3, Res.ok_bind, if_true, JIter.get, ho', hpos, jvMake, trim_ck hck]
  rw [trimChecked_cons_of_not _ (by decide)]

end Verif
