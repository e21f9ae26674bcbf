import Verif.Model.Alias
import Verif.Props.Variant

/-!
# C117: an alias is read and written as its type is

`json_type_alias`.
-/

namespace Verif

open Spec

theorem trim_trimChecked (cfg : Cfg) (r : Bytes) : trim cfg (trimChecked r) = trim cfg r := by
  have hu : ∀ r, trimUnchecked (trimChecked r) = trimUnchecked r := by
    intro r
    induction r with
    | nil => rfl
    | cons c cs ih =>
      by_cases h : isSpace c = true
      · simp [trimChecked, trimUnchecked, h, ih]
      · simp [trimChecked, trimUnchecked, h]
  unfold trim
  rw [trimChecked_idem, hu]

/-! ## Documents -/

/-- **C117, documents.**  `from_json` of an alias gives, on every text but a lone zero byte, exactly what it gives for the aliased type: the same value, the same
error; in all modes. -/
theorem C117_document_partial (t : TCfg) (Δ : Env) (f : Nat) (ty : Ty) (bs : Bytes) (hbs : bs ≠ [0]) :
    fromDoc t (aliasU t (parseU t Δ f ty)) bs = fromJson t Δ f ty bs := by
  unfold fromDoc fromJson
  dsimp only
  by_cases he : bs = []
  · rw [he]; rfl
  · have hb : (if bs.getLast? = some 0 then bs.dropLast else bs) ≠ [] := by
      by_cases h0 : bs.getLast? = some 0
      · rw [if_pos h0]
        match bs, he with
        | [c], _ =>
          simp only [List.getLast?_singleton, Option.some.injEq] at h0
          exact absurd (by rw [h0]) hbs
        | _ :: _ :: _, _ => simp
      · rw [if_neg h0]
        exact he
    have he' : bs.isEmpty = false := by simpa using he
    generalize (if bs.getLast? = some 0 then bs.dropLast else bs) = b at hb
    have hb' : b.isEmpty = false := by simpa using hb
    simp only [he', Bool.not_false, ensure_true, Res.ok_bind, aliasU, hb', assertWeak_tt]
    cases parseU t Δ f ty b with
    | ok p => simp only [Res.ok_bind, trim_trimChecked]
    | err e => rfl
    | ub => rfl

/-- Non-vacuity: `"q" `, and text that is no string. -/
example : fromDoc {} (aliasU {} (parseU {} exEnv 5 (.str true))) [0x22, 0x71, 0x22, 0x20] = .ok (.str [0x71]) ∧
    fromDoc {} (aliasU {} (parseU {} exEnv 5 (.str true))) [0x71] = .err .invalidString := by
  rw [C117_document_partial _ _ _ _ _ (by decide), C117_document_partial _ _ _ _ _ (by decide)]
  decide +kernel

/-- **C117, round trip.** -/
theorem C117_round_trip_partial (w : WCfg) (t : TCfg) (hck : t.cfg.checked = true) (Δ : Env) (hΔ : Writable Δ)
    (hp : PlainNames t Δ) (hx : w.tc = true → NoExactOrdered t Δ) (ty : Ty) (v : Val) (hv : HasTy Δ ValidUtf8 (Seven w.only7bit) ty v)
    (hdep : v.depth < 2 ^ 32) (hb : v.bare = false) :
    ∃ out, toJsonAlias w Δ ty v = .ok out ∧
      (out.length < 2 ^ 63 → ∃ f0, ∀ f, f0 ≤ f → fromDoc t (aliasU t (parseU t Δ f ty)) out = .ok v) := by
  obtain ⟨d, hd⟩ := layVal_ok (w := w) 0 ty v hv
  obtain ⟨out, h1, h2⟩ := C18_round_trip w t hck Δ hΔ hp hx ty v hv hdep hb
  have hout : out = d.text := by
    rw [toJson, writeVal_text hΔ 0 ty v hv, hd] at h1
    simpa using h1.symm
  refine ⟨out, h1, fun hl => ?_⟩
  obtain ⟨f0, hf0⟩ := h2 hl
  refine ⟨f0, fun f hf => ?_⟩
  rw [C117_document_partial t Δ f ty out ?_]
  · exact hf0 f hf
  · intro h
    have := text_last (layVal_wf hΔ 0 ty v hv hd)
    rw [← hout, h] at this
    exact this rfl

/-- Non-vacuity: a string with a quote in it. -/
example : ∃ out, toJsonAlias {} exEnv (.str true) (.str [0x61, 0x22]) = .ok out ∧
    (out.length < 2 ^ 63 → ∃ f0, ∀ f, f0 ≤ f → fromDoc {} (aliasU {} (parseU {} exEnv f (.str true))) out = .ok (.str [0x61, 0x22])) :=
  C117_round_trip_partial {} {} rfl exEnv exEnv_writable (exEnv_plain _) (by simp) _ _
    (by simp [HasTy]; exact ⟨[0x61, 0x22], by unfold IsScalar; decide, by decide⟩) (by decide) rfl

/-! ## Elements of arrays -/

/-- **C117, elements.**  An array of aliases is on every text, valid or not, parsed as the array of the aliased type is. -/
theorem C117_elements (t : TCfg) (p : Bytes → Res (Val × Bytes)) (bs : Bytes) :
    parseArr t.cfg (aliasU t p) bs = parseArr t.cfg p bs := by
  have key : ∀ n bs, bs.length = n → arrLoop t.cfg (aliasU t p) bs = arrLoop t.cfg p bs := by
    intro n
    induction n using Nat.strongRecOn with
    | ind n ih =>
      intro bs hn
      rw [arrLoop, arrLoop]
      cases hck : t.cfg.checked && bs.isEmpty with
      | true =>
        simp only [Bool.and_eq_true] at hck
        simp [hck.1, hck.2, assertWeak]
      | false =>
        have hu : aliasU t p bs = (p bs >>= fun q => .ok (q.1, trimChecked q.2)) := by
          unfold aliasU
          have : assertWeak t.cfg.checked (!bs.isEmpty) .unexpectedEndOfData = .ok () := by
            cases h1 : t.cfg.checked <;> cases h2 : bs.isEmpty <;> simp_all [assertWeak]
          rw [this, Res.ok_bind]
        rw [hu]
        have hrec : ∀ b : Bytes, b.length < bs.length → arrLoop t.cfg (aliasU t p) b = arrLoop t.cfg p b :=
          fun b hb => ih b.length (by omega) b rfl
        cases p bs with
        | err e => rfl
        | ub => rfl
        | ok q =>
          simp only [Res.ok_bind, trim_trimChecked]
          congr 1
          funext _
          congr 1
          funext b1
          congr 1
          funext _
          congr 1
          funext b2
          congr 1
          funext _
          congr 1
          funext c
          by_cases hc : c = chRBrack
          · rw [if_pos hc, if_pos hc]
          · rw [if_neg hc, if_neg hc]
            by_cases hl : b2.length < bs.length
            · rw [dif_pos hl, dif_pos hl, hrec b2 hl]
            · rw [dif_neg hl, dif_neg hl]
  unfold parseArr
  simp only [key _ _ rfl]

/-- Non-vacuity: `["q" , "r"]`. -/
example : parseArr ({} : TCfg).cfg (aliasU {} (parseU {} exEnv 5 (.str true))) [0x5B, 0x22, 0x71, 0x22, 0x20, 0x2C, 0x20, 0x22, 0x72, 0x22, 0x5D] =
    .ok (.arr [.str [0x71], .str [0x72]], []) := by
  rw [C117_elements]
  decide +kernel

/-! ## Members of classes -/

/-- The mapping with the aliased types in place of the aliases. -/
def Spec.expanded (A : Nat → Option Ty) (ms : List Member) : List Member :=
  ms.map fun m => ⟨m.name, match m.ty with | .ref i => (A i).getD m.ty | ty => ty⟩

theorem expanded_ty (A : Nat → Option Ty) (ty : Ty) : (match ty with | .ref i => (A i).getD ty | ty => ty) = (aliasOf A ty).getD ty := by
  cases ty <;> rfl

theorem expanded_names (A : Nat → Option Ty) (ms : List Member) : (expanded A ms).map Member.name = ms.map Member.name := by
  simp [expanded, Function.comp_def]

theorem aliasU_sem {t : TCfg} {tc : Bool} {p : Bytes → Res (Val × Bytes)} {d : JVal} {v : Val} (hd : d.WFt tc) (h : SemU t.cfg.checked p d v) :
    SemU t.cfg.checked (aliasU t p) d v := by
  intro k hk hns
  obtain ⟨r, hr, htr⟩ := h k hk hns
  refine ⟨trimChecked r, ?_, TrimEq.trans ?_ htr⟩
  · simp only [aliasU, text_ne_empty hd k, Bool.not_false, assertWeak_tt, Res.ok_bind, hr]
  · obtain ⟨w, hw, hs⟩ := trimChecked_split r
    exact ⟨w, hs, hw⟩

theorem aliasK_sem {t : TCfg} {tc : Bool} {p : Range → Bytes → Res Val} {d : JVal} {v : Val} (hd : d.WFt tc) (hne : d ≠ .str []) (h : SemK p d v) :
    SemK (aliasK t p) d v := by
  intro r after hs
  have hx : r.text ≠ [] := by
    rw [hs.2.1]
    match d, hd with
    | .null, _ => exact absurd rfl hs.1
    | .str b, _ => exact fun h => hne (by simpa [rangeText] using h)
    | .tru, _ | .fls, _ => simp [rangeText, JVal.text]
    | .num x, hd =>
      have := text_ne_empty hd []
      simpa [rangeText, JVal.text] using this
    | .arr w es, hd =>
      have := text_ne_empty hd []
      simpa [rangeText] using this
    | .obj w jm, hd =>
      have := text_ne_empty hd []
      simpa [rangeText] using this
  have hx' : r.text.isEmpty = false := by simpa using hx
  simp only [aliasK, hx', Bool.not_false, assertWeak_tt, Res.ok_bind]
  exact h r after hs

theorem aliasMembers_sem {t : TCfg} {tc : Bool} {Δ : Env} {A : Nat → Option Ty} {f : Nat} {jm : JMems} (hd : MOk tc jm) :
    ∀ (ms : List Member) (vs : List Val), MemSem t.cfg.checked (parseU t Δ f) (parseK t Δ f) jm (expanded A ms) vs →
      (∀ m ∈ ms, (aliasOf A m.ty).isSome = true → ∃ d, jm.get? m.name = some d ∧ d ≠ .null ∧ d ≠ .str []) →
      MemSem t.cfg.checked (memberU t Δ A f) (memberK t Δ A f) jm ms vs
  | [], [], _, _ => trivial
  | [], _ :: _, h, _ => h
  | _ :: _, [], h, _ => h
  | m :: ms, v :: vs, h, ha => by
    obtain ⟨h1, h2⟩ := h
    refine ⟨?_, aliasMembers_sem hd ms vs h2 fun m hm => ha m (by simp [hm])⟩
    dsimp only at h1
    rw [expanded_ty] at h1
    unfold memberU memberK
    cases hal : aliasOf A m.ty with
    | none =>
      rw [hal] at h1
      exact h1
    | some ty =>
      rw [hal] at h1
      obtain ⟨d, hg, hn, hs⟩ := ha m (by simp) (by rw [hal]; rfl)
      rcases h1 with ⟨d', hg', hU, hK, -⟩ | ⟨hg', -⟩
      · rw [hg] at hg'
        cases hg'
        exact Or.inl ⟨d, hg, aliasU_sem (hd.get hg).wf hU, aliasK_sem (hd.get hg).wf hs hK, fun h => absurd h hn⟩
      · rw [hg] at hg'
        cases hg'

/-- **C117, members.**  A class with members that are aliases reads an object, its members in any order, as the class with the aliased types does, if no
alias is `null`, missing, or the empty string. -/
theorem C117_members_partial (t : TCfg) (hck : t.cfg.checked = true) (Δ : Env) (henv : EnvOk Δ) (A : Nat → Option Ty) (ms : List Member) (ex : Bool)
    (hnd : (ms.map Member.name).Nodup) (w : Bytes) (jm : JMems) (vs : List Val)
    (hn : ∀ n ∈ jm.names, Usable t (ms.map Member.name) n) (honce : ∀ m ∈ ms, jm.names.count m.name ≤ 1)
    (hex : (ex || t.exactAll) = true → ∀ n ∈ jm.names, ∃ m ∈ ms, m.name = n)
    (hr : ReadsMembers Δ (Usable t) t.exactAll (expanded A ms) jm vs)
    (ha : ∀ m ∈ ms, (aliasOf A m.ty).isSome = true → ∃ d, jm.get? m.name = some d ∧ d ≠ .null ∧ d ≠ .str [])
    (hw : (JVal.obj w jm).WF) (hf : (JVal.obj w jm).Fits) :
    ∃ f0, ∀ f, f0 ≤ f → fromDoc t (parseAliasClass t Δ A f ms ex) (JVal.obj w jm).text = .ok (.cls vs) := by
  have hd := dok_of hw hf
  obtain ⟨f0, hf0⟩ := members_sem hck henv usable_nameOk rfl hr hd.mems
  refine ⟨f0, fun f hf => ?_⟩
  have hs := parseObj_sem (t := t) (exact := ex || t.exactAll) (ms := ms) hnd hd.wf hd.mems.depth hd.size
    (fun n h => usable_nameOk _ n (hn n h)) honce hex (aliasMembers_sem hd.mems ms vs (hf0 f hf) ha)
  obtain ⟨r', hr', htr⟩ := hs [] (fun _ => ⟨afterValue_nil, fun _ => endsWell_of rfl⟩) (by simp [hck])
  have hne := text_ne_empty hd.wf []
  rw [List.append_nil] at hr' hne
  have hr0 : r' = [] := by
    obtain ⟨w', -, h⟩ := htr
    simpa using (List.append_eq_nil_iff.1 h.symm).2
  subst hr0
  unfold fromDoc parseAliasClass
  simp only [hne, Bool.not_false, ensure_true, Res.ok_bind, if_neg (text_last hd.wf), assertWeak_tt, hr', trim_ck hck]
  cases t.verifyEnd <;> simp [trimChecked, ensure]

/-- `struct { int a; S s; }` with `S` a `json_type_alias<std::string>`. -/
def exAlias : Nat → Option Ty := fun i => if i = 7 then some (.str true) else none
def exAliasMs : List Member := [⟨[0x61], .int exI32 false⟩, ⟨[0x73], .ref 7⟩]

/-- Non-vacuity: `{"y":"b","t":1}` for a class with the members `t` and then `y`, an alias. -/
example : ∃ f0, ∀ f, f0 ≤ f → fromDoc {} (parseAliasClass {} exVEnv exAlias f [exTag, ⟨asc! "y", .ref 7⟩] false) (JVal.obj [] (exTagMems 0x31)).text
    = .ok (.cls [.int 1, .str asc! "b"]) := by
  refine C117_members_partial {} rfl exVEnv exVEnv_ok exAlias _ false (by decide) _ _ _ ?_ (by decide) (by simp) ?_ ?_
    (exTag_wf (by unfold IsDig; decide) (by decide)) ⟨by decide, by decide⟩
  · intro n hn
    simp only [exTagMems, JMems.names, JMems.toList, List.map_cons, List.map_nil, List.mem_cons, List.not_mem_nil, or_false] at hn
    rcases hn with rfl | rfl <;> exact usable_own (by simp [exTag]) (Or.inl (by unfold PlainName; decide))
  · exact .found (d := .num [0x31]) rfl (.int (by decide) (by decide) exOne_numeral)
      (.found (d := .str asc! "b") rfl (.str (.plain (by decide) (by decide) (by decide) .nil)) .nil)
  · intro m hm
    simp only [List.mem_cons, List.not_mem_nil, or_false] at hm
    rcases hm with rfl | rfl
    · intro h
      exact absurd h (by decide)
    · intro _
      exact ⟨.str asc! "b", rfl, by simp, by simp⟩

/-- C117 is false of the code for members located before their turn that are the empty string (first line) or null (the aliased type being `std::optional<int>`), and
for a missing alias of a nullable type; and for a document that is a zero byte. -/
theorem C117_false :
    fromDoc {} (parseAliasClass {} exEnv exAlias 9 exAliasMs false) [0x7B, 0x22, 0x73, 0x22, 0x3A, 0x22, 0x22, 0x2C, 0x22, 0x61, 0x22, 0x3A, 0x31, 0x7D]
      = .err .unexpectedEndOfData ∧
    fromDoc {} (parseAliasClass {} exEnv exAlias 9 (expanded exAlias exAliasMs) false)
      [0x7B, 0x22, 0x73, 0x22, 0x3A, 0x22, 0x22, 0x2C, 0x22, 0x61, 0x22, 0x3A, 0x31, 0x7D] = .ok (.cls [.int 1, .str []]) ∧
    fromDoc {} (parseAliasClass {} exEnv (fun _ => some (.opt (.int exI32 false))) 9 exAliasMs false)
      [0x7B, 0x22, 0x73, 0x22, 0x3A, 0x6E, 0x75, 0x6C, 0x6C, 0x2C, 0x22, 0x61, 0x22, 0x3A, 0x31, 0x7D] = .err .missingMember ∧
    fromDoc {} (parseAliasClass {} exEnv (fun _ => some (.opt (.int exI32 false))) 9 exAliasMs false)
      [0x7B, 0x22, 0x61, 0x22, 0x3A, 0x31, 0x7D] = .err .missingMember ∧
    fromDoc {} (aliasU {} (parseU {} exEnv 5 (.opt .bool))) [0] = .err .unexpectedEndOfData ∧ fromJson {} exEnv 5 (.opt .bool) [0] = .ok .none := by
  decide +kernel

end Verif
