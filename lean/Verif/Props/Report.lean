import Verif.Proof.Report
import Verif.Proof.ReportLacks
import Verif.Proof.ReportOnly
import Verif.Props.Typed
import Verif.Props.Format

/-!
# C121, C122: what an exception says

C121: `reason( )` and `what( )` of an exception tell the reason, with the name or token it is about.
C122: the exception of a class parse that lacks required members names the first of them.
-/

namespace Verif

open Spec

/-! ## C121 -/

/-- The messages of different reasons are different (`missingMember` is `MemberNotFound` in the code), none is empty, and none has a zero in it: `what( )` gives all of it. -/
theorem C121_messages (e e' : Err) (h : reasonMessage e = reasonMessage e') :
    (e = e' ∨ (e = .missingMember ∧ e' = .memberNotFound) ∨ (e = .memberNotFound ∧ e' = .missingMember)) ∧ reasonMessage e ≠ [] ∧ 0 ∉ reasonMessage e := by
  refine ⟨?_, by cases e <;> decide, by cases e <;> decide⟩
  revert h
  cases e <;> cases e' <;> decide

/-- `reason( )` is defined for every exception the functions of the library raise, but one: `basic_json_value_iterator` raises `ExpectedTokenNotFound` without a
token (`daw_json_value.h` L261), and `reason( )` takes the null pointer for the token. -/
theorem C121_reason_partial (e : Err) (first cls : Option Nat) (name : Bytes) (c : UInt8) :
    (raiseMember name first cls).text = .ok (asc! "Could not find required class member '" ++ memberText name ++ asc! "'") ∧
    (raiseToken c first cls).text = .ok (asc! "Could not find expected parse token '" ++ [c] ++ asc! "'") ∧
    (e ≠ .memberNotFound → e ≠ .expectedTokenNotFound → (raise e first cls).text = .ok (reasonMessage e)) := by
  refine ⟨?_, ?_, fun h1 h2 => ?_⟩
  · cases first <;> cases cls <;> rfl
  · cases first <;> rfl
  · cases e <;> first | exact absurd rfl h1 | exact absurd rfl h2 | (cases first <;> rfl)

/-- Non-vacuity. -/
example : (raise .invalidTrue (some 4) none).text = .ok asc! "Expected true not found" :=
  (C121_reason_partial .invalidTrue (some 4) none [] 0).2.2 (by decide) (by decide)

theorem C121_reason_false (first cls : Option Nat) : (raise .expectedTokenNotFound first cls).text = .ub := by
  cases first <;> rfl

/-! ## C122 -/

/-- A name that a message shows as it is. -/
def Spec.Printable (n : Bytes) : Prop := 0 ∉ n ∧ n.head? ≠ some 7

theorem takeWhile_all_true {p : UInt8 → Bool} : ∀ {l : Bytes}, (∀ c ∈ l, p c = true) → l.takeWhile p = l
  | [], _ => rfl
  | c :: cs, h => by
    rw [List.takeWhile_cons_of_pos (h c (by simp)), takeWhile_all_true fun x hx => h x (by simp [hx])]

theorem memberText_printable {n : Bytes} (h : Printable n) : memberText n = n := by
  unfold memberText
  have h7 : headIs (· == 0x07) n = false := by
    cases n with
    | nil => rfl
    | cons c cs =>
      have := h.2
      simp only [List.head?_cons, ne_eq, Option.some.injEq] at this
      simp [headIs, this]
  rw [h7]
  simp only [Bool.false_eq_true, if_false]
  refine takeWhile_all_true fun c hc => ?_
  simp only [ne_eq, decide_not, Bool.not_eq_true', decide_eq_false_iff_not]
  rintro rfl
  exact h.1 hc

/-- The exception and the result of the parse agree. -/
theorem C122_agrees (t : TCfg) (hck : t.cfg.checked = true) (Δ : Env) (f i : Nat) {ms : List Member} {ex : Bool} (hi : Δ i = .obj ms ex) (bs : Bytes) (je : Exc)
    (h : classException t Δ f ms ex bs = some je) :
    fromJson t Δ (f + 1) (.ref i) bs = .err .missingMember ∧ ∃ m ∈ ms, ∃ p, je = raiseMember m.name (some p) (some p) := by
  have hE : ∀ b : Bytes, (if bs.getLast? = some 0 then bs.dropLast else bs) = b →
      (if headIs (· == chLBrace) (trimChecked b) then
        (missingNamed t (ex || t.exactAll) (ms.map Member.name) (parseU t Δ f) (parseK t Δ f) 0 ms (ms.map fun _ => none)
          (trimChecked (trimChecked b).tail)).map fun n => raiseMember n (some (b.length - (trimChecked b).length)) (some (b.length - (trimChecked b).length))
      else none) = some je := by
    rintro b rfl
    rw [← h]
    unfold classException
    simp only [trim_ck hck]
  cases hb : (if bs.getLast? = some 0 then bs.dropLast else bs) with
  | nil => have := hE _ hb; simp [trimChecked, headIs] at this
  | cons c cs =>
    have h := hE _ hb
    by_cases hh : headIs (· == chLBrace) (trimChecked (c :: cs)) = true
    · rw [if_pos hh] at h
      obtain ⟨n, hn, rfl⟩ := Option.map_eq_some_iff.1 h
      obtain ⟨h1, m, h2, rfl⟩ := missingNamed_sound _ _ _ _ _ hn
      refine ⟨?_, m, h2, _, rfl⟩
      have hne : bs.isEmpty = false := by
        cases bs with
        | nil => simp at hb
        | cons c cs => rfl
      unfold fromJson
      simp only [hne, Bool.not_false, ensure_true, Res.ok_bind, hb]
      rw [parseU.eq_def t Δ (f + 1)]
      simp only [hi, List.isEmpty_cons, Bool.not_false, assertWeak_tt, Res.ok_bind, parseObj, trim_ck hck, hh, h1, Res.err_bind]
    · rw [if_neg hh] at h
      simp at h

/-- **C122, partial.**  A document lacks members that are not optional, all else being right: the exception names the first of them, in the order of the
mapping, and its place is the brace of the class.  Missing: other documents; for classes inside of others see
`C122_inside_partial`. -/
theorem C122_names_the_first_missing_partial (t : TCfg) (hck : t.cfg.checked = true) (Δ : Env) (henv : EnvOk Δ) {i : Nat}
    {ms : List Member} {ex : Bool} (hi : Δ i = .obj ms ex) (w : Bytes) (jm : JMems)
    (hn : ∀ n ∈ jm.names, Usable t (ms.map Member.name) n) (honce : ∀ m ∈ ms, jm.names.count m.name ≤ 1)
    (hex : (ex || t.exactAll) = true → ∀ n ∈ jm.names, ∃ m ∈ ms, m.name = n)
    (a : List Member) (m : Member) (b : List Member) (hms : ms = a ++ m :: b)
    (hread : ∀ m ∈ a, ∀ d, jm.get? m.name = some d → ∃ v, Reads Δ (Usable t) t.exactAll m.ty d v)
    (ha : ∀ m ∈ a, m.ty.isOpt = true ∨ m.name ∈ jm.names) (ho : m.ty.isOpt = false) (hg : m.name ∉ jm.names)
    (hw : (JVal.obj w jm).WF) (hf : (JVal.obj w jm).Fits) (front : Bytes) (hfront : IsWs front) :
    ∃ f0, ∀ f, f0 ≤ f → classException t Δ f ms ex (front ++ (JVal.obj w jm).text) =
      some ⟨.memberNotFound, .pointer (some (memberText m.name)), some front.length⟩ := by
  have hd := dok_of hw hf
  have hsplit : ∀ a' : List Member, (∀ m ∈ a', m ∈ a) → ∃ vs, ReadsMembers Δ (Usable t) t.exactAll a' jm vs := by
    intro a'
    induction a' with
    | nil => exact fun _ => ⟨[], .nil⟩
    | cons x xs ih =>
      intro hsub
      obtain ⟨vs, hvs⟩ := ih fun m hm => hsub m (by simp [hm])
      cases hx : jm.get? x.name with
      | some d =>
        obtain ⟨v, hv⟩ := hread x (hsub x (by simp)) d hx
        exact ⟨v :: vs, .found hx hv hvs⟩
      | none =>
        rcases ha x (hsub x (by simp)) with h | h
        · exact ⟨.none :: vs, .absent hx h hvs⟩
        · exact absurd h (JMems_get?_none.1 hx)
  obtain ⟨vs, hvs⟩ := hsplit a fun _ h => h
  obtain ⟨f0, hf0⟩ := members_sem hck henv usable_nameOk rfl hvs hd.mems
  refine ⟨f0, fun f hfl => ?_⟩
  have hsem := hf0 f hfl
  have hwf := hd.wf
  simp only [JVal.WFt] at hwf
  have hlocs : ∀ (k : Nat) (n : Bytes), (ms.map Member.name)[k]? = some n →
      (ms.map fun _ => (none : Option (Range × Bytes)))[k]? = some none := by
    intro k n hn
    rw [List.getElem?_map] at hn ⊢
    cases h : ms[k]? with
    | none => rw [h] at hn; simp at hn
    | some m => rfl
  have hinv : CInv t false (ex || t.exactAll) (ms.map Member.name) 0 jm jm (ms.map fun _ => none) := by
    refine ⟨by simp, hwf.2, hd.mems.depth, hd.mems.size, fun n h => usable_nameOk _ n (hn n h), ?_, ?_, ?_, ?_⟩
    · intro n hn
      obtain ⟨m, hm, rfl⟩ := List.mem_map.1 hn
      exact honce m hm
    · intro he n hn
      obtain ⟨m, hm, rfl⟩ := hex he n hn
      exact List.mem_map_of_mem hm
    · exact fun k n d _ hn hg => ⟨hg, hlocs k n hn⟩
    · exact fun k n _ hn hg => Or.inl ⟨hg, hlocs k n hn⟩
  obtain ⟨b₀, hb₀, hmv⟩ := obj_open (k := []) hd.wf
  rw [List.append_nil] at hb₀
  have hnd := henv.nodup i ms ex hi
  obtain ⟨b', rest', locs', h1, h2, h3⟩ := missingNamed_prefix (t := t) hnd (k := []) hwf.1 (m :: b) a vs 0 jm _
    (trimChecked b₀) (by simp [← hms]) hinv hmv hsem
  have hmg : jm.get? m.name = none := JMems_get?_none.2 hg
  have hpos : (ms.map Member.name)[0 + a.length]? = some m.name := by simp [hms]
  have hgr : rest'.get? m.name = none ∧ (locs'[0 + a.length]?) = some none := by
    cases hr : rest'.get? m.name with
    | some d => have := (h3.ahead _ _ d (Nat.le_refl _) hpos hr).1; rw [hmg] at this; simp at this
    | none =>
      refine ⟨rfl, ?_⟩
      rcases h3.behind _ _ (Nat.le_refl _) hpos hr with ⟨-, h⟩ | ⟨d, h, -⟩ | ⟨d, _, _, h, -⟩
      · exact h
      · rw [hmg] at h; simp at h
      · rw [hmg] at h; simp at h
  obtain ⟨locs'', hfl', -⟩ := (findLoop_sem hnd hpos (k := []) hwf.1 rest' locs' h3).2 hck hgr.1
  have hmm : memberMissing t (ex || t.exactAll) (ms.map Member.name) (0 + a.length) m locs' b' = true := by
    unfold memberMissing
    simp only [moveNext_ck hck, h2, hck, Bool.not_true, Bool.false_or, objRest_head, Bool.true_and]
    simp only [findMember, hgr.2, ho, hck, assertWeak_checked, Option.join, Option.bind,
      Bool.false_or, trimUnchecked_objRest]
    match rest' with
    | .nil => simp [objRest, headIs, ensure, notFound]
    | .cons .. =>
      simp [objRest, headIs] at hfl' ⊢
      simp [hfl', notFound]
  have hlast : (front ++ (JVal.obj w jm).text).getLast? ≠ some 0 := by
    have h := text_ne_empty hd.wf []
    rw [List.append_nil] at h
    rw [List.getLast?_append]
    have hl := text_last hd.wf
    cases hh : (JVal.obj w jm).text.getLast? with
    | none => rw [List.getLast?_eq_none_iff.1 hh] at h; simp at h
    | some c => rw [hh] at hl; simpa using hl
  have hlen : (front ++ (JVal.obj w jm).text).length - (chLBrace :: b₀).length = front.length := by
    have : (JVal.obj w jm).text = chLBrace :: b₀ := by
      rw [← hb₀]
      have : ∃ x, (JVal.obj w jm).text = chLBrace :: x := by
        cases jm with
        | nil => exact ⟨_, rfl⟩
        | cons => exact ⟨_, rfl⟩
      obtain ⟨x, hx⟩ := this
      rw [hx, trimChecked_cons_of_not _ (by decide)]
    rw [this, List.length_append]; omega
  unfold classException
  rw [if_neg hlast]
  simp only [trim_ck hck, trimChecked_ws _ _ hfront, hb₀, headIs, beq_self_eq_true, if_true, List.tail_cons, hlen]
  have h1' := h1
  rw [← hms] at h1'
  rw [h1']
  unfold missingNamed
  rw [if_pos hmm]
  rfl

/-- The message for the user: the name in quotes. -/
theorem C122_message (m : Bytes) (hm : Printable m) (p : Nat) :
    (⟨.memberNotFound, .pointer (some (memberText m)), some p⟩ : Exc).text = .ok (asc! "Could not find required class member '" ++ m ++ asc! "'") := by
  rw [memberText_printable hm]
  rfl

/-- Non-vacuity: `{"x":7}`, two lines down, has no member `a`. -/
example : ∃ f0, ∀ f, f0 ≤ f → classException {} exEnv f exMs false (asc! "\n\n" ++ (JVal.obj [] (.cons [] [0x78] [] [] (.num [0x37]) [] .nil)).text) =
    some ⟨.memberNotFound, .pointer (some asc! "a"), some 2⟩ := by
  refine C122_names_the_first_missing_partial {} rfl exEnv exEnv_ok (ms := exMs) (ex := false) (i := 0) rfl []
    (.cons [] [0x78] [] [] (.num [0x37]) [] .nil) ?_ (by decide) (by simp) []
    ⟨[0x61], .int exI32 false⟩ _ rfl (by simp) (by simp) rfl (by decide)
    ⟨Or.inl ws_nil, ws_nil, name1_wf (by decide) (by decide) (by decide), ws_nil, ws_nil,
      num1_wf (by unfold IsDig; decide) (by decide), ws_nil, trivial⟩ ⟨by decide, by decide⟩ _ ?_
  · intro n hn
    simp only [JMems.names, JMems.toList, List.map_cons, List.map_nil, List.mem_singleton] at hn
    subst hn
    exact exUsable _ (by simp)
  · intro c hc
    simp only [List.mem_cons, List.not_mem_nil, or_false, or_self] at hc
    subst hc
    exact Or.inr (Or.inr (Or.inl rfl))

/-- The reason that is given and the result of the parse agree, for any document and type. -/
theorem C122_inside_agrees (t : TCfg) (Δ : Env) (f : Nat) (ty : Ty) (bs : Bytes) (x : Res Bytes) (h : missReason t Δ f ty bs = some x) :
    fromJson t Δ f ty bs = .err .missingMember ∧ ∃ n, x = .ok (asc! "Could not find required class member '" ++ memberText n ++ asc! "'") := by
  unfold missReason at h
  by_cases he : bs.isEmpty = true
  · rw [if_pos he] at h; simp at h
  · rw [if_neg he] at h
    obtain ⟨n, hn, rfl⟩ := Option.map_eq_some_iff.1 h
    refine ⟨?_, n, rfl⟩
    have he' : bs.isEmpty = false := by simpa using he
    unfold fromJson
    simp only [he', Bool.not_false, ensure_true, Res.ok_bind, (miss_sound Δ f t ty).1 _ _ hn, Res.err_bind]

/-- The names the mapped classes of a program have for their members; members of classes stored in arrays have none. -/
def Spec.NameIn (Δ : Env) (n : Bytes) : Prop :=
  (∃ i ms ex, Δ i = .obj ms ex ∧ ∃ m ∈ ms, m.name = n) ∨ (∃ i tag sw alts, Δ i = .ivar tag sw alts ∧ tag.name = n) ∨
    ((∃ i ms ex, Δ i = .ord ms ex) ∧ n = asc! "ordered_class_member")

/-- **C122, all documents.**  Whatever the text, in checked mode or not: the parse ends with `missing_member` if and only if the reason is about a member, and that
member is one of the mapping. -/
theorem C122_exactly (t : TCfg) (Δ : Env) (f : Nat) (ty : Ty) (bs : Bytes) : fromJson t Δ f ty bs = .err .missingMember ↔
    ∃ n, NameIn Δ n ∧ missReason t Δ f ty bs = some (.ok (asc! "Could not find required class member '" ++ memberText n ++ asc! "'")) := by
  constructor
  · intro h
    unfold fromJson at h
    unfold missReason
    by_cases he : bs.isEmpty = true
    · rw [he] at h
      simp [ensure] at h
    · have he' : bs.isEmpty = false := by simpa using he
      simp only [he', Bool.not_false, ensure_true, Res.ok_bind] at h
      simp only [he', Bool.false_eq_true, if_false]
      cases hm : missU t Δ f ty (if bs.getLast? = some 0 then bs.dropLast else bs) with
      | none =>
        have hn : NM (parseU t Δ f ty (if bs.getLast? = some 0 then bs.dropLast else bs)) := (miss_none Δ f t ty).1 _ hm
        refine absurd h (NM.ne (.bind hn fun x => ?_))
        nm [nm_trim]
      | some n =>
        refine ⟨n, (miss_named Δ (P := NameIn Δ) ?_ ?_ ?_ f t ty).1 _ _ hm, rfl⟩
        · exact fun i ms ex hi m hm => .inl ⟨i, ms, ex, hi, m, hm, rfl⟩
        · exact fun i tag sw alts hi => .inr (.inl ⟨i, tag, sw, alts, hi, rfl⟩)
        · exact fun i ms ex hi => .inr (.inr ⟨⟨i, ms, ex, hi⟩, rfl⟩)
  · rintro ⟨n, -, h⟩
    exact (C122_inside_agrees t Δ f ty bs _ h).1

/-- **C122, partial.**  A document lacks a required member of a class that may stand inside of other classes, arrays, maps, tuples, nullable values or variants,
out of order or not, all that is read before being right: the reason names that member.  What follows does not matter.  Missing: documents with other faults; for
classes stored in arrays see `C122_false_for_array_classes`. -/
theorem C122_inside_partial (t : TCfg) (hck : t.cfg.checked = true) (Δ : Env) (henv : EnvOk Δ) {ty : Ty} {d : JVal} {n : Bytes}
    (h : Lacks Δ (Usable t) t.exactAll ty d n) (hw : d.WF) (hf : d.Fits) (hn : Printable n) (back : Bytes) (hback : back.getLast? ≠ some 0) :
    ∃ f0, ∀ f, f0 ≤ f → missReason t Δ f ty (d.text ++ back) = some (.ok (asc! "Could not find required class member '" ++ n ++ asc! "'")) := by
  have hd := dok_of hw hf
  obtain ⟨f0, hf0⟩ := lacks_sem hck henv usable_nameOk rfl h hd
  refine ⟨f0, fun f hfl => ?_⟩
  have hlast : (d.text ++ back).getLast? ≠ some 0 := by
    rw [List.getLast?_append]
    cases hb : back.getLast? with
    | none => simpa using text_last hd.wf
    | some c => rw [hb] at hback; simpa using hback
  unfold missReason
  rw [text_ne_empty hd.wf, if_neg hlast, (hf0 f hfl).1 back]
  simp only [Bool.false_eq_true, if_false, Option.map_some, (C121_reason_partial .unknown none none n 0).1, memberText_printable hn]

/-- `{"x":7}` -/
def exLackIn : JVal := .obj [] (.cons [] [0x78] [] [] (.num [0x37]) [] .nil)

/-- `{"c":[{"x":7}],"a":0}` -/
def exLack : JVal := .obj [] (.cons [] [0x63] [] [] (.arr [] (.cons [] exLackIn [] .nil)) [] (.cons [] [0x61] [] [] (.num [0x30]) [] .nil))

/-- Non-vacuity: the class in the array of `{"c":[{"x":7}],"a":0}`, whose range is stored until `a` has been read, has no member `a`. -/
example : ∃ f0, ∀ f, f0 ≤ f → missReason {} exEnv f (.ref 0) (exLack.text ++ asc! "; ") = some (.ok asc! "Could not find required class member 'a'") := by
  have h0 : Lacks exEnv (Usable {}) false (.ref 0) exLackIn [0x61] := by
    refine .here (ex := false) (a := []) (m := ⟨[0x61], .int exI32 false⟩) rfl ?_ (by decide) (by simp) .nil rfl rfl
    intro n hn
    simp only [JMems.names, JMems.toList, List.map_cons, List.map_nil, List.mem_singleton] at hn
    subst hn
    exact exUsable _ (by simp)
  refine C122_inside_partial {} rfl exEnv exEnv_ok (ty := .ref 0) (d := exLack) (n := [0x61]) ?_ ?_ ⟨by decide, by decide⟩ ⟨by decide, by decide⟩ _ (by decide)
  · refine .inside (ex := false) (a := [⟨[0x61], .int exI32 false⟩, ⟨[0x62], .opt .bool⟩]) (m := ⟨[0x63], .opt (.arr (.ref 0))⟩) (b := []) rfl ?_ (by decide)
      (by simp) (.found (d := .num [0x30]) rfl (.int (by decide) (by decide) exZero_numeral) (.absent rfl rfl .nil)) rfl (.some (.arr (.first h0)))
    intro n hn
    simp only [JMems.names, JMems.toList, List.map_cons, List.map_nil, List.mem_cons, List.not_mem_nil, or_false] at hn
    rcases hn with rfl | rfl <;> exact exUsable _ (by simp)
  · refine ⟨Or.inl ws_nil, ws_nil, name1_wf (by decide) (by decide) (by decide), ws_nil, ws_nil, ⟨Or.inl ws_nil, ws_nil, ?_, ws_nil, trivial⟩, ws_nil, ws_nil,
      name1_wf (by decide) (by decide) (by decide), ws_nil, ws_nil, ?_, ws_nil, trivial⟩
    · exact ⟨Or.inl ws_nil, ws_nil, name1_wf (by decide) (by decide) (by decide), ws_nil, ws_nil,
        num1_wf (by unfold IsDig; decide) (by decide), ws_nil, trivial⟩
    · exact ⟨[], [0x30], [], [], Or.inl rfl, Or.inl rfl, Or.inl rfl, Or.inl rfl, rfl⟩

/-- The same, by evaluating the model. -/
example : missReason {} exEnv 9 (.ref 0) exLack.text = some (.ok asc! "Could not find required class member 'a'") ∧
    fromJson {} exEnv 9 (.ref 0) exLack.text = .err .missingMember := by decide +kernel

theorem lacksOrdered_end {Δ : Env} {nm : List Bytes → Bytes → Prop} {ea : Bool} {ty : Ty} {b : List (Option Nat × Ty)} (ho : ty.isOpt = false) :
    ∀ {a : List Ty} {es : JElems} {vs : List Val}, ReadsTuple Δ nm ea true a es vs → ∀ idx,
      LacksOrdered Δ nm ea idx (a.map (fun x => (none, x)) ++ (none, ty) :: b) es asc! "ordered_class_member"
  | _, _, _, .nil he _, idx => by
    rw [he rfl]
    exact .absent (by simp) ho
  | _, _, _, .cons h1 h2, idx => .next (.inl rfl) h1 (lacksOrdered_end ho h2 (idx + 1))

/-- **C122 is false for classes stored in arrays.**  However many members are there, the reason for the first one that is missing is the same and names
`ordered_class_member`, which is no member at all. -/
theorem C122_false_for_array_classes (t : TCfg) (hck : t.cfg.checked = true) (Δ : Env) (henv : EnvOk Δ) {i : Nat} {a : List Ty} {ty : Ty}
    {b : List (Option Nat × Ty)} {ex : Bool} (hi : Δ i = .ord (a.map (fun x => (none, x)) ++ (none, ty) :: b) ex) (ho : ty.isOpt = false) {w : Bytes} {es : JElems}
    {vs : List Val} (h : ReadsTuple Δ (Usable t) t.exactAll true a es vs) (hw : (JVal.arr w es).WF) (hf : (JVal.arr w es).Fits) (back : Bytes)
    (hback : back.getLast? ≠ some 0) :
    ∃ f0, ∀ f, f0 ≤ f →
      missReason t Δ f (.ref i) ((JVal.arr w es).text ++ back) = some (.ok asc! "Could not find required class member 'ordered_class_member'") :=
  C122_inside_partial t hck Δ henv (.ord hi (lacksOrdered_end ho h 0)) hw hf ⟨by decide, by decide⟩ back hback

/-- A class of two numbers in an array, a tuple of a number and that class. -/
def exPairEnv : Env := fun i => if i = 0 then .ord [(none, .int exI32 false), (none, .int exI32 false)] false else if i = 1 then .tup [.bool, .ref 0] false else .obj [] false

theorem exPairEnv_ok : EnvOk exPairEnv := by
  constructor <;> intros <;> simp_all [exPairEnv] <;> (repeat' split at *) <;> simp_all

/-- Non-vacuity: `[0]` and `[]` lack one member and two, the reason is the same. -/
example : (∃ f0, ∀ f, f0 ≤ f → missReason {} exPairEnv f (.ref 0) (asc! "[0]" ++ asc! " ") = some (.ok asc! "Could not find required class member 'ordered_class_member'")) ∧
    ∃ f0, ∀ f, f0 ≤ f → missReason {} exPairEnv f (.ref 0) (asc! "[]" ++ asc! " ") = some (.ok asc! "Could not find required class member 'ordered_class_member'") :=
  ⟨C122_false_for_array_classes {} rfl exPairEnv exPairEnv_ok (i := 0) (a := [.int exI32 false]) (b := []) (w := []) (es := .cons [] (.num [0x30]) [] .nil) rfl rfl
      (.cons (.int (by decide) (by decide) exZero_numeral) (.nil (fun _ => rfl) (by simp)))
      ⟨Or.inl ws_nil, ws_nil, ⟨[], [0x30], [], [], Or.inl rfl, Or.inl rfl, Or.inl rfl, Or.inl rfl, rfl⟩, ws_nil, trivial⟩ ⟨by decide, by decide⟩ _ (by decide),
    C122_false_for_array_classes {} rfl exPairEnv exPairEnv_ok (i := 0) (a := []) (b := [(none, .int exI32 false)]) (w := []) (es := .nil) rfl rfl
      (.nil (fun _ => rfl) (by simp)) ⟨Or.inl ws_nil, trivial⟩ ⟨by decide, by decide⟩ _ (by decide)⟩

/-- In a tuple, by evaluating the model. -/
example : missReason {} exPairEnv 9 (.ref 1) asc! "[true,[0]]" = some (.ok asc! "Could not find required class member 'ordered_class_member'") ∧
    fromJson {} exPairEnv 9 (.ref 1) asc! "[true,[0]]" = .err .missingMember ∧ missReason {} exPairEnv 9 (.ref 1) asc! "[true,[0,0]]" = none := by decide +kernel

/-- Non-vacuity for all documents: `{"a":1,"b":true,"c":[{ }` is at fault in two ways, and `a` is named; `{"a":` is not about a member. -/
example : (∃ n, NameIn exEnv n ∧ missReason {} exEnv 9 (.ref 0) asc! "{\"a\":1,\"b\":true,\"c\":[{ }" =
      some (.ok (asc! "Could not find required class member '" ++ memberText n ++ asc! "'"))) ∧
    ¬ ∃ n, NameIn exEnv n ∧ missReason {} exEnv 9 (.ref 0) asc! "{\"a\":" =
      some (.ok (asc! "Could not find required class member '" ++ memberText n ++ asc! "'")) :=
  ⟨(C122_exactly {} exEnv 9 (.ref 0) _).1 (by decide +kernel), fun h => absurd ((C122_exactly {} exEnv 9 (.ref 0) _).2 h) (by decide +kernel)⟩

/-- A name with a zero in it is cut there. -/
theorem C122_false_for_zeros (a b : Bytes) (h : Printable a) (hne : a ≠ []) : memberText (a ++ 0 :: b) = a := by
  unfold memberText
  have h7 : headIs (· == 0x07) (a ++ 0 :: b) = false := by
    cases a with
    | nil => exact absurd rfl hne
    | cons c cs =>
      have := h.2
      simp only [List.head?_cons, ne_eq, Option.some.injEq] at this
      simp [headIs, this]
  rw [h7]
  simp only [Bool.false_eq_true, if_false]
  have key : ∀ l : Bytes, 0 ∉ l → (l ++ 0 :: b).takeWhile (· ≠ 0) = l := by
    intro l
    induction l with
    | nil => intro _; simp
    | cons c cs ih =>
      intro h0
      simp only [List.mem_cons, not_or] at h0
      rw [List.cons_append, List.takeWhile_cons_of_pos (by simpa using fun e => h0.1 e.symm), ih h0.2]
  exact key a h.1

example : memberText asc! "a\x00b" = asc! "a" := C122_false_for_zeros asc! "a" asc! "b" ⟨by decide, by decide⟩ (by decide)

/-- With C95: the report on a missing member of the outermost class, which stands at the beginning of the document or behind fewer than fifty
blanks, reads in front of the document. -/
theorem C122_report_false (t : TCfg) (hck : t.cfg.checked = true) (Δ : Env) (f : Nat) {ms : List Member} {ex : Bool} (doc : Bytes)
    (je : Exc) (h : classException t Δ f ms ex doc = some je) (hfront : doc.length < (trimChecked doc).length + 50) (h0 : doc.getLast? ≠ some 0) (colour : Bool) :
    je.formatted colour (some doc) = .ub := by
  have hE : (if headIs (· == chLBrace) (trimChecked doc) then
        (missingNamed t (ex || t.exactAll) (ms.map Member.name) (parseU t Δ f) (parseK t Δ f) 0 ms (ms.map fun _ => none)
          (trimChecked (trimChecked doc).tail)).map fun n => raiseMember n (some (doc.length - (trimChecked doc).length)) (some (doc.length - (trimChecked doc).length))
      else none) = some je := by
    rw [← h]
    unfold classException
    rw [if_neg h0]
    simp only [trim_ck hck]
  split at hE
  · obtain ⟨n, hn, rfl⟩ := Option.map_eq_some_iff.1 hE
    unfold Exc.formatted
    rw [(C121_reason_partial .unknown _ _ n 0).1, Res.ok_bind]
    exact (C95_false_reads_outside colour _ doc _ (Nat.sub_le _ _)).2 (.inr (.inl (by omega)))
  · simp at hE

/-- Non-vacuity: `{"x":7}` again. -/
example : (∃ je, classException {} exEnv 9 exMs false asc! "{\"x\":7}" = some je ∧ je.formatted true (some asc! "{\"x\":7}") = .ub) := by
  have h : classException {} exEnv 9 exMs false asc! "{\"x\":7}" = some ⟨.memberNotFound, .pointer (some asc! "a"), some 0⟩ := by decide +kernel
  exact ⟨_, h, C122_report_false {} rfl exEnv 9 _ _ h (by decide +kernel) (by decide) true⟩

end Verif
