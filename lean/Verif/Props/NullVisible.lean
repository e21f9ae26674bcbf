import Verif.Props.DepWrite
import Verif.Proof.DepNames
import Verif.Proof.SchemaStrip

/-!
# Property C96: which nullable members are written
-/

namespace Verif

open Spec

/-- The object with members `jm` shows the value as the mapping asks.
* A member that has a value is there, and is not `null`.
* An empty member is there, as `null`, if it is `JsonNullable::NullVisible`.
* Any other empty member is not there. -/
def Spec.ShowsMembers (ms : List DMember) (vs : List Val) (jm : JMems) : Prop :=
  ∀ m v, (m, v) ∈ ms.zip vs →
    (Present m v → m.name ∈ jm.names ∧ jm.get? m.name ≠ some .null) ∧
    (¬ Present m v → m.vis = true → jm.get? m.name = some .null) ∧
    (¬ Present m v → m.vis = false → m.name ∉ jm.names)

/-- **C96, partial.**  What is written is one object, no name occurs twice in it, it shows the value, and beside that there are only the members
on which those that have a value depend.
Missing: empty members that are `JsonNullable::NullVisible`, see `C96_false_for_null_visible`. -/
theorem C96_nullable_members_partial (w : WCfg) (Δ : Env) (hΔ : Writable Δ) (ms : List DMember) (vs : List Val)
    (hc : Consistent Δ ValidUtf8 (Seven w.only7bit) ms vs) (hown : ∀ m ∈ ms, IsStrBody m.name)
    (hneed : ∀ m v d x, (m, v) ∈ ms.zip vs → Present m v → Needs ms vs m.ty d x → IsStrBody d.name)
    (hvis : ∀ m v, (m, v) ∈ ms.zip vs → m.vis = true → Present m v) :
    ∃ ws jm, toJsonDep w Δ ms vs = .ok (JVal.obj ws jm).text ∧ (JVal.obj ws jm).WFt w.tc ∧ jm.names.Nodup ∧ ShowsMembers ms vs jm ∧
      ∀ n, n ∈ jm.names ↔ (∃ m v, (m, v) ∈ ms.zip vs ∧ Present m v ∧ m.name = n) ∨
        ∃ m v d x, (m, v) ∈ ms.zip vs ∧ Present m v ∧ Needs ms vs m.ty d x ∧ d.name = n := by
  obtain ⟨ws, jm, h1, h2, h3, h4, h5, h6⟩ := dep_written hΔ hc hown hneed
  refine ⟨ws, jm, h1, h2, h3, fun m v hm => ⟨fun hp => ⟨(h4 m v hm).2 hp, h5 m v hm⟩, fun hp hv => absurd (hvis m v hm hv) hp, fun hp _ hn => ?_⟩, h6⟩
  exact hp ((h4 m v hm).1 hn)

theorem names_strip (jm : JMems) : jm.strip.names = jm.names := by
  unfold JMems.names
  rw [mems_strip_toList, List.map_map]
  rfl

/-- C96 is false of the code for every value with an empty member that is `JsonNullable::NullVisible`: nothing is written for it, and no document
that shows the value has the text that is written. -/
theorem C96_false_for_null_visible (w : WCfg) (hw : w.tc = false) (Δ : Env) (hΔ : Writable Δ) (ms : List DMember) (vs : List Val)
    (hc : Consistent Δ ValidUtf8 (Seven w.only7bit) ms vs) (hown : ∀ m ∈ ms, IsStrBody m.name)
    (hneed : ∀ m v d x, (m, v) ∈ ms.zip vs → Present m v → Needs ms vs m.ty d x → IsStrBody d.name)
    (m : DMember) (v : Val) (hm : (m, v) ∈ ms.zip vs) (hvis : m.vis = true) (hempty : ¬ Present m v) :
    ∃ out, toJsonDep w Δ ms vs = .ok out ∧
      ∀ ws jm, (JVal.obj ws jm).WF → (JVal.obj ws jm).text = out → m.name ∉ jm.names ∧ ¬ ShowsMembers ms vs jm := by
  obtain ⟨ws0, jm0, h1, h2, h3, h4, h5, h6⟩ := dep_written hΔ hc hown hneed
  rw [hw] at h2
  refine ⟨_, h1, fun ws jm hwf ht => ?_⟩
  have hs := text_unique hwf h2 ht
  simp only [JVal.strip, JVal.obj.injEq] at hs
  have hn : jm.names = jm0.names := by rw [← names_strip jm, hs.2, names_strip]
  have hno : m.name ∉ jm.names := fun h => hempty ((h4 m v hm).1 (hn ▸ h))
  refine ⟨hno, fun hsh => ?_⟩
  have := (hsh m v hm).2.1 hempty hvis
  rw [JMems_get?_none.2 hno] at this
  cases this

/-! ### Concrete values -/

/-- The members `optional<bool> o; optional<bool> p; bool q;`, with `JsonNullable::NullVisible` for `p`. -/
def exVis : List DMember :=
  [{ name := asc! "o", opt := true, ty := .plain .bool }, { name := asc! "p", opt := true, vis := true, ty := .plain .bool },
    { name := asc! "q", ty := .plain .bool }]

theorem exVis_consistent {T : Bytes → Prop} {v : Val} (hv : v = .none ∨ v = .some (.bool true)) :
    Consistent (fun _ => .obj [] false) ValidUtf8 T exVis [.none, v, .bool true] := by
  have hz : ∀ m x, (m, x) ∈ exVis.zip [Val.none, v, .bool true] → m.ty = .plain .bool ∧
      (m.opt = true ∧ (x = .none ∨ x = .some (.bool true)) ∨ m.opt = false ∧ x = .bool true) := by
    intro m x h
    simp only [exVis, List.zip_cons_cons, List.zip_nil_right, List.mem_cons, Prod.mk.injEq, List.not_mem_nil, or_false] at h
    rcases h with ⟨rfl, rfl⟩ | ⟨rfl, rfl⟩ | ⟨rfl, rfl⟩
    · exact ⟨rfl, Or.inl ⟨rfl, Or.inl rfl⟩⟩
    · exact ⟨rfl, Or.inl ⟨rfl, hv⟩⟩
    · exact ⟨rfl, Or.inr ⟨rfl, rfl⟩⟩
  refine ⟨fun m x h _ => Or.inl ⟨_, (hz m x h).1⟩, by decide, rfl, fun m x h => ?_, fun m x m' x' d d' y y' h _ _ _ hn => ?_,
    fun m x d y m' x' h _ hn => ?_⟩
  · obtain ⟨h1, ⟨h2, h3⟩ | ⟨h2, h3⟩⟩ := hz m x h
    · rcases h3 with rfl | rfl
      · simp [HasSlot, h2]
      · simp only [HasSlot, h2, if_true, h1]
        exact Or.inr ⟨_, rfl, by simp, by rw [HasTy]⟩
    · subst h3
      simp only [HasSlot, h2, Bool.false_eq_true, if_false, h1]
      exact ⟨by simp, by rw [HasTy]⟩
  · rw [(hz m x h).1] at hn
    exact absurd hn id
  · rw [(hz m x h).1] at hn
    exact absurd hn id

theorem exVis_names : ∀ m ∈ exVis, IsStrBody m.name := by
  intro m hm
  simp only [exVis, List.mem_cons, List.not_mem_nil, or_false] at hm
  rcases hm with rfl | rfl | rfl <;> exact name1_wf (by decide) (by decide) (by decide)

theorem exVis_needs {V : List Val} : ∀ m v d x, (m, v) ∈ exVis.zip V → Present m v → Needs exVis V m.ty d x → IsStrBody d.name := by
  intro m v d x h _ hn
  have : m ∈ exVis := (List.of_mem_zip h).1
  simp only [exVis, List.mem_cons, List.not_mem_nil, or_false] at this
  rcases this with rfl | rfl | rfl <;> exact absurd hn id

/-- Non-vacuity: `{ nullopt, true, true }`, pretty printed. -/
example : ∃ ws jm, toJsonDep { pretty := true } (fun _ => .obj [] false) exVis [.none, .some (.bool true), .bool true] = .ok (JVal.obj ws jm).text ∧
    (JVal.obj ws jm).WFt false ∧ jm.names.Nodup ∧ ShowsMembers exVis [.none, .some (.bool true), .bool true] jm ∧
    ∀ n, n ∈ jm.names ↔ (∃ m v, (m, v) ∈ exVis.zip [.none, .some (.bool true), .bool true] ∧ Present m v ∧ m.name = n) ∨
      ∃ m v d x, (m, v) ∈ exVis.zip [.none, .some (.bool true), .bool true] ∧ Present m v ∧
        Needs exVis [.none, .some (.bool true), .bool true] m.ty d x ∧ d.name = n :=
  C96_nullable_members_partial { pretty := true } _ exDep_writable exVis _ (exVis_consistent (Or.inr rfl)) exVis_names exVis_needs (by
    intro m v h hv
    simp only [exVis, List.zip_cons_cons, List.zip_nil_right, List.mem_cons, Prod.mk.injEq, List.not_mem_nil, or_false] at h
    rcases h with ⟨rfl, rfl⟩ | ⟨rfl, rfl⟩ | ⟨rfl, rfl⟩
    · cases hv
    · exact Or.inr (by simp)
    · cases hv)

example : toJsonDep {} (fun _ => .obj [] false) exVis [.none, .some (.bool true), .bool true] = .ok asc! "{\"p\":true,\"q\":true}" := by decide +kernel

/-- Non-vacuity: `{ nullopt, nullopt, true }` is written without `p`. -/
example : ∃ out, toJsonDep {} (fun _ => .obj [] false) exVis [.none, .none, .bool true] = .ok out ∧
    ∀ ws jm, (JVal.obj ws jm).WF → (JVal.obj ws jm).text = out → asc! "p" ∉ jm.names ∧ ¬ ShowsMembers exVis [.none, .none, .bool true] jm :=
  C96_false_for_null_visible {} rfl _ exDep_writable exVis _ (exVis_consistent (Or.inl rfl)) exVis_names exVis_needs
    { name := asc! "p", opt := true, vis := true, ty := .plain .bool } .none (by simp [exVis]) rfl (by simp [Present])

example : toJsonDep {} (fun _ => .obj [] false) exVis [.none, .none, .bool true] = .ok asc! "{\"q\":true}" := by decide +kernel

/-- The tag that goes with `exVisTag`: 7 if the variant is empty. -/
def exVisWr : List Val → Val
  | [.some (.alt k _)] => .int k
  | _ => .int 7

/-- The member `optional<variant<int, string>> v;` with a tag, `vis` says whether it is `JsonNullable::NullVisible`. -/
def exVisTag (vis : Bool) : List DMember :=
  [{ name := asc! "v", opt := true, vis := vis, ty := .tagged exDepTag exDepSw exVisWr [.int exI32 true, .str true] }]

/-- The option is not without effect: of an empty variant with `JsonNullable::NullVisible` the tag is written, but not the variant; what is
written then depends on what the switcher makes of an empty variant. -/
theorem C96_false_tag_without_member :
    toJsonDep {} (fun _ => .obj [] false) (exVisTag true) [.none] = .ok asc! "{\"t\":7}" ∧
    toJsonDep {} (fun _ => .obj [] false) (exVisTag false) [.none] = .ok asc! "{}" ∧
    toJsonDep {} (fun _ => .obj [] false) (exVisTag true) [.some (.alt 1 (.str asc! "a"))] = .ok asc! "{\"t\":1,\"v\":\"a\"}" :=
  ⟨by decide +kernel, by decide +kernel, by decide +kernel⟩

end Verif
