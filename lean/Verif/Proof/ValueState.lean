import Verif.Proof.ValueFind
import Verif.Proof.Hash

/-!
# Cached positions
-/

namespace Verif

open Spec

variable {t : TCfg} {it0 : JIter} {items : List Item}

/-- The iterator after a number of steps. -/
def iterAt (t : TCfg) (it0 : JIter) : Nat → Res JIter
  | 0 => .ok it0
  | n + 1 => iterAt t it0 n >>= fun it => it.next t

/-- The value a number of steps further. -/
def valAt (t : TCfg) (it0 : JIter) (n : Nat) : Res JV := do
  let it ← iterAt t it0 n
  let (_, v) ← it.get t
  .ok v

theorem iterAt_cur (h : Cur t items it0) : ∀ i, i ≤ items.length → ∃ it, iterAt t it0 i = .ok it ∧ Cur t (items.drop i) it
  | 0, _ => ⟨it0, rfl, h⟩
  | i + 1, hi => by
    obtain ⟨it, h1, h2⟩ := iterAt_cur h i (by omega)
    rw [List.drop_eq_getElem_cons (by omega)] at h2
    obtain ⟨-, -, -, it', hn, -, hc⟩ := h2
    exact ⟨it', by simp [iterAt, h1, hn], hc⟩

/-- The cache describes the first items. -/
structure LocsOk (t : TCfg) (it0 : JIter) (items : List Item) (locs : List JLoc) : Prop where
  len : locs.length ≤ items.length
  at_ : ∀ (i : Nat) (l : JLoc), locs[i]? = some l → ∃ p, items[i]? = some p ∧ l.name = p.1.getD [] ∧ l.hash = nameHash t.longNames l.name ∧
    iterAt t it0 i = .ok l.iter

theorem LocsOk.nil : LocsOk t it0 items [] := ⟨by simp, by simp⟩

theorem LocsOk.snoc {locs : List JLoc} (h : LocsOk t it0 items locs) {p : Item} {it : JIter} (hp : items[locs.length]? = some p)
    (hit : iterAt t it0 locs.length = .ok it) :
    LocsOk t it0 items (locs ++ [⟨p.1.getD [], nameHash t.longNames (p.1.getD []), it⟩]) := by
  have hlt : locs.length < items.length := by
    rcases Nat.lt_or_ge locs.length items.length with h | h
    · exact h
    · rw [List.getElem?_eq_none h] at hp; simp at hp
  refine ⟨by simp; omega, fun i l hl => ?_⟩
  rw [List.getElem?_append] at hl
  split at hl
  · exact h.at_ i l hl
  · rename_i hge
    have hi : i = locs.length := by
      rcases Nat.lt_or_ge (i - locs.length) 1 with h | h
      · omega
      · rw [List.getElem?_eq_none (by simpa using h)] at hl; simp at hl
    subst hi
    simp only [Nat.sub_self, List.getElem?_cons_zero, Option.some.injEq] at hl
    subst hl
    exact ⟨p, hp, rfl, rfl, hit⟩

theorem jsResume_eq {s : JState} (hb : jvBegin t.cfg s.value = .ok it0) (h : LocsOk t it0 items s.locs) :
    jsResume t s = iterAt t it0 s.locs.length := by
  unfold jsResume
  cases hl : s.locs.getLast? with
  | none =>
    rw [List.getLast?_eq_none_iff] at hl
    simp [hl, iterAt, hb]
  | some l =>
    have hne : s.locs ≠ [] := by rintro h; simp [h] at hl
    obtain ⟨n, hn⟩ : ∃ n, s.locs.length = n + 1 := ⟨s.locs.length - 1, by
      have := List.length_pos_iff.2 hne; omega⟩
    rw [List.getLast?_eq_getElem?, hn, Nat.add_sub_cancel] at hl
    obtain ⟨-, -, -, -, hit⟩ := h.at_ n l hl
    rw [hn]
    simp [iterAt, hit]

theorem drop_head (n : Nat) {p : Item} {tl : List Item} (h : items.drop n = p :: tl) :
    n < items.length ∧ items[n]? = some p ∧ items.drop (n + 1) = tl := by
  have hlt : n < items.length := by
    rcases Nat.lt_or_ge n items.length with hh | hh
    · exact hh
    · rw [List.drop_eq_nil_of_le hh] at h; simp at h
  rw [List.drop_eq_getElem_cons hlt, List.cons.injEq] at h
  exact ⟨hlt, by rw [List.getElem?_eq_getElem hlt, h.1], h.2⟩

/-- The scan for a name, in an object. -/
theorem scanName_obj (key : Bytes) (hobj : ∀ p ∈ items, ∃ n, p.1 = some n) : ∀ (rest : List Item) (locs : List JLoc) (it : JIter),
    items.drop locs.length = rest → iterAt t it0 locs.length = .ok it → Cur t rest it → LocsOk t it0 items locs →
    ∃ locs', scanName t key locs it = .ok (locs.length + rest.findIdx (fun p => p.1 == some key), locs') ∧ LocsOk t it0 items locs' ∧
      locs'.length = min (locs.length + rest.findIdx (fun p => p.1 == some key) + 1) items.length
  | [], locs, it, hr, _, hc, hl => by
    have hlen : items.length ≤ locs.length := by simpa using hr
    have := hl.len
    refine ⟨locs, ?_, hl, by simp; omega⟩
    unfold scanName
    rw [hc.1]
    rfl
  | (m, d) :: tl, locs, it, hr, hit, hc, hl => by
    obtain ⟨hlt, hget, hdrop⟩ := drop_head _ hr
    obtain ⟨n, hn⟩ := hobj _ (List.mem_of_getElem? hget)
    simp only at hn
    subst hn
    obtain ⟨hg, hname, -, it', hnext, hlt', hcur⟩ := hc
    have hsnoc := hl.snoc hget hit
    simp only [Option.getD_some] at hsnoc
    by_cases hk : n = key
    · subst hk
      refine ⟨_, ?_, hsnoc, by simp [List.findIdx_cons]; omega⟩
      unfold scanName
      simp [hg, hname, List.findIdx_cons]
    · have hb : (some n == some key) = false := by simpa using hk
      obtain ⟨locs', h1, h2, h3⟩ := scanName_obj key hobj tl (locs ++ [⟨n, nameHash t.longNames n, it⟩]) it' (by simpa using hdrop)
        (by simp [iterAt, hit, hnext]) hcur hsnoc
      simp only [List.length_append, List.length_cons, List.length_nil, Nat.zero_add] at h1 h3
      refine ⟨locs', ?_, h2, ?_⟩
      · unfold scanName
        simp only [hg, hname, Res.ok_bind, if_neg (by decide : ¬ true = false), if_neg hk, hnext, dif_pos hlt', h1, List.findIdx_cons, hb]
        congr 2
        simp only [cond_false]; omega
      · rw [h3]
        simp only [List.findIdx_cons, hb, cond_false]
        congr 1; omega

/-- The scan for an index. -/
theorem scanIndex_cur (index : Nat) : ∀ (rest : List Item) (locs : List JLoc) (it : JIter), locs.length ≤ index →
    items.drop locs.length = rest → iterAt t it0 locs.length = .ok it → Cur t rest it → LocsOk t it0 items locs →
    ∃ locs', scanIndex t index locs it = .ok (min index items.length, locs') ∧ LocsOk t it0 items locs' ∧
      locs'.length = min (index + 1) items.length
  | [], locs, it, hi, hr, _, hc, hl => by
    have hlen : items.length ≤ locs.length := by simpa using hr
    have := hl.len
    refine ⟨locs, ?_, hl, by omega⟩
    unfold scanIndex
    rw [hc.1]
    simp only [Res.ok_bind, if_true]
    congr 2; omega
  | (m, d) :: tl, locs, it, hi, hr, hit, hc, hl => by
    obtain ⟨hlt, hget, hdrop⟩ := drop_head _ hr
    obtain ⟨hg, hname, -, it', hnext, hlt', hcur⟩ := hc
    have hsnoc := hl.snoc hget hit
    by_cases hk : locs.length = index
    · refine ⟨_, ?_, hsnoc, by simp; omega⟩
      unfold scanIndex
      simp only [hg, hname, Res.ok_bind, if_neg (by decide : ¬ true = false), if_pos hk]
      congr 2; omega
    · obtain ⟨locs', h1, h2, h3⟩ := scanIndex_cur index tl _ it' (by simp; omega) (by simpa using hdrop)
        (by simp [iterAt, hit, hnext]) hcur hsnoc
      refine ⟨locs', ?_, h2, h3⟩
      unfold scanIndex
      simp only [hg, hname, Res.ok_bind, if_neg (by decide : ¬ true = false), if_neg hk, hnext, dif_pos hlt', h1]

/-- The state belongs to the value. -/
structure StateOk (t : TCfg) (it0 : JIter) (v : JV) (items : List Item) (s : JState) : Prop where
  value : s.value = v
  locs : LocsOk t it0 items s.locs

variable {v : JV}

theorem moveToIndex_ok (hb : jvBegin t.cfg v = .ok it0) (hc : Cur t items it0) {s : JState} (hs : StateOk t it0 v items s)
    (index : Nat) : ∃ s', moveToIndex t s index = .ok (min index items.length, s') ∧ StateOk t it0 v items s' ∧
      (index < items.length → index < s'.locs.length) ∧ (items.length ≤ index → s'.locs.length = items.length) := by
  have hl := hs.locs.len
  unfold moveToIndex
  by_cases hlt : index < s.locs.length
  · rw [if_pos hlt]
    exact ⟨s, by congr 2; omega, hs, fun _ => hlt, fun h => by omega⟩
  · rw [if_neg hlt, jsResume_eq (by rw [hs.value]; exact hb) hs.locs]
    obtain ⟨it, h1, h2⟩ := iterAt_cur hc s.locs.length hl
    obtain ⟨locs', h3, h4, h5⟩ := scanIndex_cur index _ s.locs it (by omega) rfl h1 h2 hs.locs
    refine ⟨{ s with locs := locs' }, by simp [h1, h3], ⟨hs.value, h4⟩, ?_, ?_⟩
    · intro h; simp only [h5]; omega
    · intro h; simp only [h5]; omega

theorem moveToName_obj (hb : jvBegin t.cfg v = .ok it0) (hc : Cur t items it0) (hobj : ∀ p ∈ items, ∃ n, p.1 = some n)
    {s : JState} (hs : StateOk t it0 v items s) (key : Bytes) :
    ∃ s', moveToName t s key = .ok (items.findIdx (fun p => p.1 == some key), s') ∧ StateOk t it0 v items s' ∧
      (items.findIdx (fun p => p.1 == some key) < items.length ↔ items.findIdx (fun p => p.1 == some key) < s'.locs.length) := by
  have hl := hs.locs.len
  have hmatch : ∀ (i : Nat) (l : JLoc) (p : Item), s.locs[i]? = some l → items[i]? = some p →
      ((nameHash false key == l.hash && l.name == key) = (p.1 == some key)) := by
    intro i l p h1 h2
    obtain ⟨p', hp', hn, hh, -⟩ := hs.locs.at_ i l h1
    rw [h2, Option.some.injEq] at hp'
    subst hp'
    obtain ⟨n, hpn⟩ := hobj p (List.mem_of_getElem? h2)
    rw [hpn] at hn ⊢
    simp only [Option.getD_some] at hn
    rw [hh, hn, nameHash_long n t.longNames]
    by_cases hk : n = key
    · subst hk; simp
    · simp [hk]
  unfold moveToName
  cases hf : s.locs.findIdx? (fun l => nameHash false key == l.hash && l.name == key) with
  | some pos =>
    rw [List.findIdx?_eq_some_iff_getElem] at hf
    obtain ⟨hp, h1, h2⟩ := hf
    have hlt : pos < items.length := by omega
    have hidx : items.findIdx (fun p => p.1 == some key) = pos := by
      rw [List.findIdx_eq hlt]
      refine ⟨?_, fun j hj => ?_⟩
      · rw [← hmatch pos s.locs[pos] items[pos] (by rw [List.getElem?_eq_getElem]) (by rw [List.getElem?_eq_getElem])]; exact h1
      · have := h2 j hj
        rw [hmatch j s.locs[j] items[j] (by rw [List.getElem?_eq_getElem]) (by rw [List.getElem?_eq_getElem])] at this
        simpa using this
    rw [hidx]
    exact ⟨s, rfl, hs, by simp [hlt, hp]⟩
  | none =>
    rw [List.findIdx?_eq_none_iff] at hf
    obtain ⟨it, h1, h2⟩ := iterAt_cur hc s.locs.length hl
    obtain ⟨locs', h3, h4, h5⟩ := scanName_obj key hobj _ s.locs it rfl h1 h2 hs.locs
    have hidx : items.findIdx (fun p => p.1 == some key) = s.locs.length + (items.drop s.locs.length).findIdx (fun p => p.1 == some key) := by
      conv => lhs; rw [← List.take_append_drop s.locs.length items]
      rw [List.findIdx_append, if_neg]
      · rw [List.length_take, Nat.min_eq_left hl, Nat.add_comm]
      · intro hlt
        rw [List.findIdx_lt_length] at hlt
        obtain ⟨p, hp, hk⟩ := hlt
        obtain ⟨i, hi, rfl⟩ := List.getElem_of_mem hp
        rw [List.length_take] at hi
        have hil : i < s.locs.length := by omega
        have := hf s.locs[i] (List.getElem_mem hil)
        rw [hmatch i s.locs[i] items[i] (by rw [List.getElem?_eq_getElem]) (by rw [List.getElem?_eq_getElem])] at this
        simp only [List.getElem_take] at hk
        rw [hk] at this
        simp at this
    rw [hidx]
    rw [jsResume_eq (by rw [hs.value]; exact hb) hs.locs]
    refine ⟨{ s with locs := locs' }, by simp [h1, h3], ⟨hs.value, h4⟩, ?_⟩
    simp only [h5]
    omega

theorem jsValueAt_ok {s : JState} (hs : StateOk t it0 v items s) {pos : Nat} (hp : pos < s.locs.length) :
    jsValueAt t s pos = valAt t it0 pos := by
  obtain ⟨-, -, -, -, hit⟩ := hs.locs.at_ pos s.locs[pos] (by rw [List.getElem?_eq_getElem])
  unfold jsValueAt valAt
  rw [List.getElem?_eq_getElem hp, hit]
  rfl

/-- What a query returns, without a cache. -/
def ansOf (t : TCfg) (it0 : JIter) (items : List Item) : Lookup → Res Answer
  | .byName key =>
    if items.findIdx (fun p => p.1 == some key) < items.length then do
      let v ← valAt t it0 (items.findIdx (fun p => p.1 == some key))
      .ok (.value v)
    else .err .unknownMember
  | .atName key =>
    if items.findIdx (fun p => p.1 == some key) < items.length then do
      let v ← valAt t it0 (items.findIdx (fun p => p.1 == some key))
      .ok (.value v)
    else .ok (.value [])
  | .indexOf key => .ok (.num (items.findIdx (fun p => p.1 == some key)))
  | .contains key => .ok (.bool (decide (items.findIdx (fun p => p.1 == some key) < items.length)))
  | .size => .ok (.num items.length)
  | .byIndex index =>
    if index < 0 then
      if index.natAbs < items.length then do
        let v ← valAt t it0 (items.length - index.natAbs)
        .ok (.value v)
      else .err .unknownMember
    else if index.natAbs < items.length then do
      let v ← valAt t it0 index.natAbs
      .ok (.value v)
    else .err .unknownMember

/-- The query is by index, or for the size. -/
def Lookup.positional : Lookup → Bool
  | .size | .byIndex _ => true
  | _ => false

theorem jsSize_ok (hb : jvBegin t.cfg v = .ok it0) (hc : Cur t items it0) (hk : jvType t.cfg v = .ok .array ∨ jvType t.cfg v = .ok .cls)
    (hsz : items.length < 18446744073709551615) {s : JState} (hs : StateOk t it0 v items s) :
    ∃ s', jsSize t s = .ok (items.length, s') ∧ StateOk t it0 v items s' ∧ s'.locs.length = items.length := by
  obtain ⟨s', h1, h2, -, h3⟩ := moveToIndex_ok hb hc hs 18446744073709551615
  rw [Nat.min_eq_right (by omega)] at h1
  refine ⟨s', ?_, h2, h3 (by omega)⟩
  unfold jsSize
  rw [hs.value]
  rcases hk with hk | hk <;> simp [hk, h1]

theorem jsLookup_pos (hck : t.cfg.checked = true) (hb : jvBegin t.cfg v = .ok it0) (hc : Cur t items it0)
    (hk : jvType t.cfg v = .ok .array ∨ jvType t.cfg v = .ok .cls) (hsz : items.length < 18446744073709551615)
    {s : JState} (hs : StateOk t it0 v items s) (q : Lookup) (hq : q.positional = true) :
    (jsLookup t s q).1 = ansOf t it0 items q ∧ StateOk t it0 v items (jsLookup t s q).2 := by
  cases q with
  | byName | atName | indexOf | contains => simp [Lookup.positional] at hq
  | size =>
    obtain ⟨s', h1, h2, -⟩ := jsSize_ok hb hc hk hsz hs
    simp only [jsLookup, h1, jsThen, ansOf]
    exact ⟨trivial, h2⟩
  | byIndex index =>
    by_cases hneg : index < 0
    · obtain ⟨s', h1, h2, h3⟩ := jsSize_ok hb hc hk hsz hs
      simp only [jsLookup, if_pos hneg, h1, jsThen, ansOf]
      refine ⟨?_, h2⟩
      have habs : 0 < index.natAbs := by omega
      by_cases hlt : index.natAbs < items.length
      · rw [if_pos hlt]
        simp only [assertWeak, hck, hlt, decide_true, if_true]
        rw [if_neg (by omega), jsValueAt_ok h2 (by omega)]
        simp
      · rw [if_neg hlt]
        simp [assertWeak, hck, hlt]
    · obtain ⟨s', h1, h2, h3, h4⟩ := moveToIndex_ok hb hc hs index.natAbs
      simp only [jsLookup, if_neg hneg, h1, jsThen, ansOf]
      refine ⟨?_, h2⟩
      by_cases hlt : index.natAbs < items.length
      · rw [if_pos hlt, Nat.min_eq_left (by omega)]
        have h5 := h3 hlt
        simp [jsChecked, assertWeak, hck, h5, jsValueAt_ok h2 h5]
      · rw [if_neg hlt, Nat.min_eq_right (by omega)]
        have h5 := h4 (by omega)
        simp [jsChecked, assertWeak, hck, h5]

theorem jsLookup_obj (hck : t.cfg.checked = true) (hb : jvBegin t.cfg v = .ok it0) (hc : Cur t items it0)
    (hobj : ∀ p ∈ items, ∃ n, p.1 = some n) (hk : jvType t.cfg v = .ok .array ∨ jvType t.cfg v = .ok .cls)
    (hsz : items.length < 18446744073709551615) {s : JState} (hs : StateOk t it0 v items s) (q : Lookup) :
    (jsLookup t s q).1 = ansOf t it0 items q ∧ StateOk t it0 v items (jsLookup t s q).2 := by
  by_cases hq : q.positional = true
  · exact jsLookup_pos hck hb hc hk hsz hs q hq
  cases q with
  | size | byIndex => simp [Lookup.positional] at hq
  | byName key =>
    obtain ⟨s', h1, h2, h3⟩ := moveToName_obj hb hc hobj hs key
    simp only [jsLookup, h1, jsThen, ansOf]
    refine ⟨?_, h2⟩
    by_cases hlt : items.findIdx (fun p => p.1 == some key) < items.length
    · have h4 := h3.1 hlt
      rw [if_pos hlt]
      simp [jsChecked, assertWeak, hck, h4, jsValueAt_ok h2 h4]
    · rw [if_neg hlt]
      have h4 : ¬ items.findIdx (fun p => p.1 == some key) < s'.locs.length := fun h => hlt (h3.2 h)
      have h5 := decide_eq_false h4
      simp only [jsChecked, assertWeak, hck, h5]
      rfl
  | atName key =>
    obtain ⟨s', h1, h2, h3⟩ := moveToName_obj hb hc hobj hs key
    simp only [jsLookup, h1, jsThen, ansOf]
    refine ⟨?_, h2⟩
    by_cases hlt : items.findIdx (fun p => p.1 == some key) < items.length
    · have h4 := h3.1 hlt
      rw [if_pos hlt, if_pos h4, jsValueAt_ok h2 h4]
    · rw [if_neg hlt, if_neg (fun h => hlt (h3.2 h))]
  | indexOf key =>
    obtain ⟨s', h1, h2, h3⟩ := moveToName_obj hb hc hobj hs key
    simp only [jsLookup, h1, jsThen, ansOf]
    exact ⟨trivial, h2⟩
  | contains key =>
    obtain ⟨s', h1, h2, h3⟩ := moveToName_obj hb hc hobj hs key
    simp only [jsLookup, h1, jsThen, ansOf]
    exact ⟨by simp only [h3], h2⟩

theorem moveToName_arr (hck : t.cfg.checked = true) (hb : jvBegin t.cfg v = .ok it0) (hc : Cur t items it0)
    (harr : ∀ p ∈ items, p.1 = none) {s : JState} (hs : StateOk t it0 v items s) (key : Bytes)
    (f : Nat → JState → Res Answer) : StateOk t it0 v items (jsThen (moveToName t s key) s f).2 := by
  unfold moveToName
  cases hf : s.locs.findIdx? (fun l => nameHash false key == l.hash && l.name == key) with
  | some pos => exact hs
  | none =>
    obtain ⟨it, h1, h2⟩ := iterAt_cur hc s.locs.length hs.locs.len
    simp only [jsResume_eq (by rw [hs.value]; exact hb) hs.locs, h1, Res.ok_bind]
    generalize hr : items.drop s.locs.length = rest at h2
    cases rest with
    | nil =>
      unfold scanName
      rw [h2.1]
      exact hs
    | cons p tl =>
      obtain ⟨n, d⟩ := p
      have hn := harr _ (List.mem_of_getElem? (drop_head _ hr).2.1)
      simp only at hn
      subst hn
      unfold scanName
      rw [h2.1, Res.ok_bind, if_neg (by decide), h2.2.1]
      simp [hck, jsThen, hs]

theorem jsAfter_obj (hck : t.cfg.checked = true) (hb : jvBegin t.cfg v = .ok it0) (hc : Cur t items it0)
    (hobj : ∀ p ∈ items, ∃ n, p.1 = some n) (hk : jvType t.cfg v = .ok .array ∨ jvType t.cfg v = .ok .cls)
    (hsz : items.length < 18446744073709551615) (qs : List Lookup) {s : JState} (hs : StateOk t it0 v items s) :
    StateOk t it0 v items (jsAfter t s qs) := by
  induction qs generalizing s with
  | nil => exact hs
  | cons q qs ih => exact ih (jsLookup_obj hck hb hc hobj hk hsz hs q).2

theorem jsAfter_arr (hck : t.cfg.checked = true) (hb : jvBegin t.cfg v = .ok it0) (hc : Cur t items it0)
    (harr : ∀ p ∈ items, p.1 = none) (hk : jvType t.cfg v = .ok .array ∨ jvType t.cfg v = .ok .cls)
    (hsz : items.length < 18446744073709551615) (qs : List Lookup) {s : JState} (hs : StateOk t it0 v items s) :
    StateOk t it0 v items (jsAfter t s qs) := by
  induction qs generalizing s with
  | nil => exact hs
  | cons q qs ih =>
    refine ih ?_
    by_cases hq : q.positional = true
    · exact (jsLookup_pos hck hb hc hk hsz hs q hq).2
    · cases q with
      | size | byIndex => simp [Lookup.positional] at hq
      | byName key | atName key | indexOf key | contains key => exact moveToName_arr hck hb hc harr hs key _

theorem valAt_ok (hc : Cur t items it0) {i : Nat} {p : Item} (hi : items[i]? = some p) :
    ∃ k, valAt t it0 i = .ok (p.2.text ++ k) ∧ AfterValue k ∧ k ≠ [] := by
  have hlt : i < items.length := by
    rcases Nat.lt_or_ge i items.length with h | h
    · exact h
    · rw [List.getElem?_eq_none h] at hi; simp at hi
  obtain ⟨it, h1, h2⟩ := iterAt_cur hc i (by omega)
  rw [List.drop_eq_getElem_cons hlt] at h2
  rw [List.getElem?_eq_getElem hlt, Option.some.injEq] at hi
  rw [hi] at h2
  obtain ⟨n, d⟩ := p
  obtain ⟨-, -, ⟨k, hk, hka, hkn⟩, -⟩ := h2
  exact ⟨k, by simp [valAt, h1, hk], hka, hkn⟩

theorem elems_len (es : JElems) : es.toList.length ≤ es.text.length := by
  match es with
  | .nil => simp [JElems.toList]
  | .cons pre v post tl =>
    have := elems_len tl
    simp only [JElems.toList, JElems.text, List.length_cons, List.length_append]
    omega

theorem mems_len (ms : JMems) : ms.toList.length ≤ ms.text.length := by
  match ms with
  | .nil => simp [JMems.toList]
  | .cons pre n pc qc v post tl =>
    have := mems_len tl
    simp only [JMems.toList, JMems.text, List.length_cons, List.length_append]
    omega

theorem items_len (d : JVal) : d.items.length ≤ d.text.length := by
  match d with
  | .null | .tru | .fls | .num _ | .str _ => simp [JVal.items]
  | .arr w .nil | .obj w .nil => simp [JVal.items, JElems.toList, JMems.toList]
  | .arr w (.cons pre v post tl) =>
    have := elems_len tl
    simp only [JVal.items, JElems.toList, JVal.text, List.length_cons, List.length_append, List.length_map]
    omega
  | .obj w (.cons pre n pc qc v post tl) =>
    have := mems_len tl
    simp only [JVal.items, JMems.toList, JVal.text, List.length_cons, List.length_append, List.length_map]
    omega

end Verif
