import Verif.Model.SubVariant
import Verif.Props.Variant

/-!
# C115: variants of classes told apart by one of their members

`json_submember_tagged_variant`.
-/

namespace Verif

open Spec

/-- The type is a class, stored as an object or in an array. -/
def Spec.IsClass (Δ : Env) (ty : Ty) : Prop := ∃ j, ty = .ref j ∧ ((∃ ms ex, Δ j = .obj ms ex) ∨ ∃ ms ex, Δ j = .ord ms ex)

/-! ## The choice -/

theorem nthClass_eq {n N idx : Nat} (h1 : N ≤ idx) (h2 : idx < n) : nthClass n N idx = some idx := by
  induction hk : n - N using Nat.strongRecOn generalizing N with
  | ind k ih =>
    rw [nthClass]
    by_cases h8 : N + 8 ≤ n
    · rw [if_pos h8]
      by_cases hi : idx < N + 8
      · rw [if_pos ⟨h1, hi⟩]
      · rw [if_neg (by omega)]
        exact ih (n - (N + 8)) (by omega) (by omega) rfl
    · rw [if_neg h8]
      by_cases h3 : N + 3 ≤ n
      · rw [if_pos h3]
        by_cases hi : idx < n - 1
        · rw [if_pos ⟨h1, hi⟩]
        · rw [if_neg (by omega)]
          congr 1
          omega
      · rw [if_neg h3]
        by_cases hn : n = N + 2
        · rw [if_pos hn]
          by_cases hi : idx = N
          · rw [if_pos hi, hi]
          · rw [if_neg hi]
            congr 1
            omega
        · rw [if_neg hn, if_pos (by omega)]
          congr 1
          omega

/-- **C115, the choice.**  The chain of `switch` statements picks the alternative with the number it is given, however many there are. -/
theorem C115_choice (n idx : Nat) (hi : idx < n) : nthClass n 0 idx = some idx := nthClass_eq (Nat.zero_le _) hi

/-- Non-vacuity: with 19 alternatives, two full `switch` statements and one of three. -/
example : nthClass 19 0 17 = some 17 ∧ nthClass 19 0 18 = some 18 ∧ nthClass 19 0 3 = some 3 :=
  ⟨C115_choice 19 17 (by decide), C115_choice 19 18 (by decide), C115_choice 19 3 (by decide)⟩

/-- With 8, 16, 24, … alternatives the library cannot be compiled: one `switch` too many is instantiated. -/
theorem C115_false_for_eight (n : Nat) : nthCompiles n 0 = false ↔ n % 8 = 0 := by
  have key : ∀ k N, N % 8 = 0 → n - N = k → N ≤ n → (nthCompiles n N = false ↔ n % 8 = 0) := by
    intro k
    induction k using Nat.strongRecOn with
    | ind k ih =>
      intro N hN hk hle
      rw [nthCompiles]
      by_cases h8 : N + 8 ≤ n
      · rw [if_pos h8]
        exact ih (n - (N + 8)) (by omega) (N + 8) (by omega) rfl h8
      · rw [if_neg h8, decide_eq_false_iff_not]
        omega
  exact key n 0 rfl (by omega) (Nat.zero_le _)

/-! ## Reading -/

theorem altOfTag_sub {cfg : Cfg} {sw : Val → Nat} {alts : List Ty} (x : Val) (a : Nat × Ty) :
    (do let k ← subIndex cfg sw alts.length x; subAlt alts k) = .ok a ↔ altOfTag cfg sw alts x = .ok a := by
  have one : ∀ y, (do let k ← subIndex cfg sw alts.length (.cls [y]); subAlt alts k) = .ok a ↔ altOfTag cfg sw alts (.cls [y]) = .ok a := by
    intro y
    unfold subIndex altOfTag
    dsimp only
    by_cases hlt : sw y < alts.length
    · have hk : alts[sw y]? = some alts[sw y] := List.getElem?_eq_getElem hlt
      simp only [hlt, decide_true, assertWeak_tt, Res.ok_bind, if_true, subAlt, C115_choice _ _ hlt, hk]
    · have hk : alts[sw y]? = none := List.getElem?_eq_none (by omega)
      rw [hk]
      cases hc : cfg.checked <;> simp [assertWeak, hlt]
  match x with
  | .cls [y] => exact one y
  | .cls [] => simp [subIndex, altOfTag]
  | .cls (_ :: _ :: _) => simp [subIndex, altOfTag]
  | x =>
    unfold subIndex altOfTag
    split
    · exact one _
    · simp

/-- The rest behind a class is trimmed already. -/
theorem class_trimmed {t : TCfg} {Δ : Env} {f : Nat} {ty : Ty} (hc : IsClass Δ ty) {bs r : Bytes} {v : Val}
    (h : parseU t Δ f ty bs = .ok (v, r)) : trimChecked r = r := by
  obtain ⟨j, rfl, ⟨ms, ex, hj⟩ | ⟨ms, ex, hj⟩⟩ := hc
  all_goals
    cases f with
    | zero => rw [parseU] at h; cases h
    | succ f =>
      rw [parseU] at h
      simp only [hj] at h
      obtain ⟨_, _, h⟩ := Res.bind_eq_ok.1 h
      obtain ⟨⟨v', r'⟩, _, h⟩ := Res.bind_eq_ok.1 h
      cases h
      exact trimChecked_idem _

/-- **C115.**  A `json_submember_tagged_variant` reads exactly what the `json_intrusive_variant` with the same tag, switcher and classes reads, on
every text, valid or not, checked or not, in place and located before its turn: with it C76, C77 and what C50 and C62 say about such variants inside of
other types hold for it. -/
theorem C115_same_as_intrusive_partial (t : TCfg) (Δ : Env) {i : Nat} {tag : Member} {sw : Val → Nat} {alts : List Ty} (hi : Δ i = .ivar tag sw alts)
    (hcls : ∀ ty ∈ alts, IsClass Δ ty) (f : Nat) :
    (∀ bs v r, parseSub t Δ f tag sw alts bs = .ok (v, r) ↔ parseU t Δ (f + 1) (.ref i) bs = .ok (v, r)) ∧
    (∀ rg after v, parseSubK t Δ f tag sw alts rg after = .ok v ↔ parseK t Δ (f + 1) (.ref i) rg after = .ok v) := by
  have hmem : ∀ {x a}, altOfTag t.cfg sw alts x = .ok a → a.2 ∈ alts := by
    intro x a h
    unfold altOfTag at h
    split at h
    · split at h
      · cases h
        exact List.mem_of_getElem? ‹_›
      · split at h <;> cases h
    · cases h
  refine ⟨fun bs v r => ?_, fun rg after v => ?_⟩
  · rw [parseU]
    simp only [hi]
    unfold parseSub
    constructor
    · intro h
      obtain ⟨u, h0, h⟩ := Res.bind_eq_ok.1 h
      obtain ⟨⟨x, r0⟩, h1, h⟩ := Res.bind_eq_ok.1 h
      obtain ⟨k, h2, h⟩ := Res.bind_eq_ok.1 h
      obtain ⟨a, h3, h⟩ := Res.bind_eq_ok.1 h
      obtain ⟨⟨y, r1⟩, h4, h⟩ := Res.bind_eq_ok.1 h
      have ha := (altOfTag_sub x a).1 (by rw [h2, Res.ok_bind, h3])
      cases h
      rw [class_trimmed (hcls _ (hmem ha)) h4]
      simp only [h0, Res.ok_bind, h1, ha, h4]
    · intro h
      obtain ⟨u, h0, h⟩ := Res.bind_eq_ok.1 h
      obtain ⟨⟨x, r0⟩, h1, h⟩ := Res.bind_eq_ok.1 h
      obtain ⟨a, ha, h⟩ := Res.bind_eq_ok.1 h
      obtain ⟨⟨y, r1⟩, h4, h⟩ := Res.bind_eq_ok.1 h
      obtain ⟨k, h2, h3⟩ := Res.bind_eq_ok.1 ((altOfTag_sub x a).2 ha)
      cases h
      simp only [h0, Res.ok_bind, h1, h2, h3, h4, class_trimmed (hcls _ (hmem ha)) h4]
  · rw [parseK]
    simp only [hi]
    unfold parseSubK
    constructor
    · intro h
      obtain ⟨u, h0, h⟩ := Res.bind_eq_ok.1 h
      obtain ⟨⟨x, r0⟩, h1, h⟩ := Res.bind_eq_ok.1 h
      obtain ⟨k, h2, h⟩ := Res.bind_eq_ok.1 h
      obtain ⟨a, h3, h⟩ := Res.bind_eq_ok.1 h
      have ha := (altOfTag_sub x a).1 (by rw [h2, Res.ok_bind, h3])
      simp only [h0, Res.ok_bind, h1, ha]
      exact h
    · intro h
      obtain ⟨u, h0, h⟩ := Res.bind_eq_ok.1 h
      obtain ⟨⟨x, r0⟩, h1, h⟩ := Res.bind_eq_ok.1 h
      obtain ⟨a, ha, h⟩ := Res.bind_eq_ok.1 h
      obtain ⟨k, h2, h3⟩ := Res.bind_eq_ok.1 ((altOfTag_sub x a).2 ha)
      simp only [h0, Res.ok_bind, h1, h2, h3]
      exact h

theorem exSub_classes : ∀ ty ∈ [Ty.ref 3, .ref 4], IsClass exVEnv ty := by
  intro ty h
  simp only [List.mem_cons, List.not_mem_nil, or_false] at h
  rcases h with rfl | rfl
  · exact ⟨3, rfl, Or.inl ⟨_, _, rfl⟩⟩
  · exact ⟨4, rfl, Or.inl ⟨_, _, rfl⟩⟩

/-- Non-vacuity: `{"y":"b","t":1} x`. -/
example : parseSub {} exVEnv 8 exTag exSw [.ref 3, .ref 4] asc! "{\"y\":\"b\",\"t\":1} x" = .ok (.alt 1 (.cls [.str asc! "b", .int 1]), asc! "x") :=
  ((C115_same_as_intrusive_partial {} exVEnv (i := 2) rfl exSub_classes 8).1 _ _ _).2 (by decide +kernel)

theorem fromJsonSub_eq (t : TCfg) (Δ : Env) {i : Nat} {tag : Member} {sw : Val → Nat} {alts : List Ty} (hi : Δ i = .ivar tag sw alts)
    (hcls : ∀ ty ∈ alts, IsClass Δ ty) (f : Nat) (bs : Bytes) (v : Val) :
    fromJsonSub t Δ f tag sw alts bs = .ok v ↔ fromJson t Δ (f + 1) (.ref i) bs = .ok v := by
  have key := (C115_same_as_intrusive_partial t Δ hi hcls f).1
  unfold fromJsonSub fromJson
  dsimp only
  generalize (if bs.getLast? = some 0 then bs.dropLast else bs) = b
  constructor
  · intro h
    obtain ⟨u, h0, h⟩ := Res.bind_eq_ok.1 h
    obtain ⟨⟨x, r⟩, h1, h⟩ := Res.bind_eq_ok.1 h
    rw [h0, Res.ok_bind, (key _ _ _).1 h1, Res.ok_bind]
    exact h
  · intro h
    obtain ⟨u, h0, h⟩ := Res.bind_eq_ok.1 h
    obtain ⟨⟨x, r⟩, h1, h⟩ := Res.bind_eq_ok.1 h
    rw [h0, Res.ok_bind, (key _ _ _).2 h1, Res.ok_bind]
    exact h

/-- **C115.**  An object with one member of the name of the tag is read as the class that the switcher gives for the value of that member,
wherever in the object it stands. -/
theorem C115_reads_partial (t : TCfg) (hck : t.cfg.checked = true) (Δ : Env) (henv : EnvOk Δ) {i : Nat} {tag : Member}
    {sw : Val → Nat} {alts : List Ty} (hi : Δ i = .ivar tag sw alts) (hcls : ∀ ty ∈ alts, IsClass Δ ty)
    (w : Bytes) (jm : JMems) (hn : ∀ n ∈ jm.names, Usable t [tag.name] n) (honce : jm.names.count tag.name ≤ 1)
    (hex : t.exactAll = true → ∀ n ∈ jm.names, n = tag.name)
    {dx : JVal} {x : Val} (hg : jm.get? tag.name = some dx) (hx : Reads Δ (Usable t) t.exactAll tag.ty dx x)
    {ty : Ty} (hty : alts[sw x]? = some ty) (v : Val) (hr : Reads Δ (Usable t) t.exactAll ty (.obj w jm) v)
    (hw : (JVal.obj w jm).WF) (hf : (JVal.obj w jm).Fits) :
    ∃ f0, ∀ f, f0 ≤ f → fromJsonSub t Δ f tag sw alts (JVal.obj w jm).text = .ok (.alt (sw x) v) := by
  obtain ⟨f0, hf0⟩ := C76_variant_by_tag_partial t hck Δ henv hi w jm hn honce hex hg hx hty v hr hw hf
  exact ⟨f0, fun f hf => (fromJsonSub_eq t Δ hi hcls f _ _).2 (hf0 (f + 1) (by omega))⟩

/-- Non-vacuity: `{"y":"b","t":1}` is the second class. -/
example : ∃ f0, ∀ f, f0 ≤ f → fromJsonSub {} exVEnv f exTag exSw [.ref 3, .ref 4] (JVal.obj [] (exTagMems 0x31)).text
    = .ok (.alt 1 (.cls [.str asc! "b", .int 1])) :=
  C115_reads_partial {} rfl exVEnv exVEnv_ok (i := 2) (sw := exSw) rfl exSub_classes [] _ exTag_usable (by decide) (by simp)
    (dx := .num [0x31]) (x := .int 1) rfl (.int (by decide) (by decide) exOne_numeral) rfl _ exTagDoc_reads
    (exTag_wf (by unfold IsDig; decide) (by decide)) ⟨by decide, by decide⟩

/-- If the switcher gives no class for the tag the object is rejected, whatever else is in it. -/
theorem C115_unknown_tag (t : TCfg) (hck : t.cfg.checked = true) (Δ : Env) (henv : EnvOk Δ) {tag : Member}
    {sw : Val → Nat} {alts : List Ty} (w : Bytes) (jm : JMems)
    (hn : ∀ n ∈ jm.names, Usable t [tag.name] n) (honce : jm.names.count tag.name ≤ 1)
    (hex : t.exactAll = true → ∀ n ∈ jm.names, n = tag.name)
    {dx : JVal} {x : Val} (hg : jm.get? tag.name = some dx) (hx : Reads Δ (Usable t) t.exactAll tag.ty dx x)
    (hty : alts.length ≤ sw x) (hw : (JVal.obj w jm).WF) (hf : (JVal.obj w jm).Fits) :
    ∃ f0, ∀ f, f0 ≤ f → fromJsonSub t Δ f tag sw alts (JVal.obj w jm).text = .err .unexpectedJSONVariantType := by
  have hd := dok_of hw hf
  obtain ⟨f0, hf0⟩ := members_sem hck henv usable_nameOk rfl (.found hg hx .nil) hd.mems
  refine ⟨f0, fun f hf => ?_⟩
  have hs := parseObj_sem (t := t) (exact := t.exactAll) (ms := [tag]) (by simp) hd.wf hd.mems.depth hd.size
    (fun n h => usable_nameOk _ n (hn n h)) (by simpa using honce) (fun he n h => ⟨tag, by simp, (hex he n h).symm⟩) (hf0 f (by omega))
  obtain ⟨r', hr', -⟩ := hs [] (fun _ => ⟨afterValue_nil, fun _ => endsWell_of rfl⟩) (by simp [hck])
  have hne := text_ne_empty hd.wf []
  rw [List.append_nil] at hr' hne
  have halt : subIndex t.cfg sw alts.length (.cls [x]) = .err .unexpectedJSONVariantType := by
    simp [subIndex, hck, assertWeak, Nat.not_lt.2 hty]
  unfold fromJsonSub
  simp only [hne, Bool.not_false, ensure_true, Res.ok_bind, if_neg (text_last hd.wf), parseSub, hck, assertWeak_checked, hr', halt, Res.err_bind]

/-- Non-vacuity: `{"y":"b","t":7}`. -/
example : ∃ f0, ∀ f, f0 ≤ f → fromJsonSub {} exVEnv f exTag exSw [.ref 3, .ref 4] (JVal.obj [] (exTagMems 0x37)).text
    = .err .unexpectedJSONVariantType :=
  C115_unknown_tag {} rfl exVEnv exVEnv_ok [] _ exTag_usable (by decide) (by simp) (dx := .num asc! "7") (x := .int 7) rfl
    (.int (by decide) (by decide) num7_numeral) (by decide) (exTag_wf (by unfold IsDig; decide) (by decide)) ⟨by decide, by decide⟩

/-! ## Writing -/

/-- **C115, round trip.**  The class that the variant holds is written, as the class alone is, and read back as the same, if its tag says that it is that
class. -/
theorem C115_round_trip_partial (w : WCfg) (t : TCfg) (hck : t.cfg.checked = true) (Δ : Env) (hΔ : Writable Δ)
    (hp : PlainNames t Δ) (hx : w.tc = true → NoExactOrdered t Δ) {i k : Nat} {tag : Member} {sw : Val → Nat} {alts : List Ty}
    (hi : Δ i = .ivar tag sw alts) (hcls : ∀ ty ∈ alts, IsClass Δ ty) {j p : Nat} {ms : List Member} {ex : Bool}
    (hty : alts[k]? = some (.ref j)) (hj : Δ j = .obj ms ex)
    (hm : ms[p]? = some tag) (vs : List Val) (x : Val) (hxv : vs[p]? = some x) (hsw : sw x = k)
    (hv : HasTy Δ ValidUtf8 (Seven w.only7bit) (.ref j) (.cls vs)) (hdep : (Val.cls vs).depth < 2 ^ 32) :
    ∃ out, toJson w Δ (.ref j) (.cls vs) = .ok out ∧ toJsonSub w Δ alts (.alt k (.cls vs)) = .ok out ∧
      (out.length < 2 ^ 63 → ∃ f0, ∀ f, f0 ≤ f → fromJsonSub t Δ f tag sw alts out = .ok (.alt k (.cls vs))) := by
  obtain ⟨out, h1, -, h3⟩ := C77_tagged_round_trip_partial w t hck Δ hΔ hp hx hi hty hj hm vs x hxv hsw hv hdep
  refine ⟨out, h1, by simp [toJsonSub, hty, h1], fun hl => ?_⟩
  obtain ⟨f0, hf0⟩ := h3 hl
  exact ⟨f0, fun f hf => (fromJsonSub_eq t Δ hi hcls f _ _).2 (hf0 (f + 1) (by omega))⟩

/-- Non-vacuity: a `Y` with tag 1. -/
example : ∃ out, toJson {} exVEnv (.ref 4) (.cls [.str asc! "b", .int 1]) = .ok out ∧
    toJsonSub {} exVEnv [.ref 3, .ref 4] (.alt 1 (.cls [.str asc! "b", .int 1])) = .ok out ∧
    (out.length < 2 ^ 63 → ∃ f0, ∀ f, f0 ≤ f → fromJsonSub {} exVEnv f exTag exSw [.ref 3, .ref 4] out = .ok (.alt 1 (.cls [.str asc! "b", .int 1]))) :=
  C115_round_trip_partial {} {} rfl exVEnv exVEnv_writable exVEnv_plain (by simp) (i := 2) rfl exSub_classes (k := 1) rfl
    (ms := [⟨asc! "y", .str true⟩, exTag]) (ex := false) rfl (p := 1) rfl _ (.int 1) rfl rfl
    (by
      simp [HasTy, HasList, exVEnv, exTag]
      exact ⟨⟨[0x62], by unfold IsScalar; decide, by decide⟩, by decide⟩) (by decide)

/-- C115 is false of the code with the option `UseExactMappingsByDefault`, and for a value with the tag of another class. -/
theorem C115_false :
    fromJsonSub { exactAll := true } exVEnv 9 exTag exSw [.ref 3, .ref 4] (JVal.obj [] (exTagMems 0x31)).text = .err .unknownMember ∧
    toJsonSub {} exVEnv [.ref 3, .ref 4] (.alt 0 (.cls [.int 1, .int 7])) = .ok asc! "{\"t\":1,\"x\":7}" ∧
    fromJsonSub {} exVEnv 9 exTag exSw [.ref 3, .ref 4] asc! "{\"t\":1,\"x\":7}" = .err .missingMember := by decide +kernel

end Verif
