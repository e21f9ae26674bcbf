import Verif.Props.Dep
import Verif.Proof.DepTrip

/-!
# Property C91: writing members that depend on another member of the class
-/

namespace Verif

open Spec

/-- **C91, partial.**  Every value of a class with tagged variants, sized arrays and arrays of pairs among its members is written, and what is
written reads back as the value; for every combination of output options and of parse options in checked mode.
Missing: what `Ordered` asks, see `C91_false_behind_empty_member`; variants that share a tag name but not the tag (`Consistent`), see
`C91_false_for_shared_tag`; empty variants and sized arrays that are `JsonNullable::NullVisible` (`Consistent`); the names
must be told apart and, with `UseExactMappingsByDefault`, there must be no tagged variant (`TellApart`), see `C88_false_with_exact_mappings`. -/
theorem C91_round_trip_partial (w : WCfg) (t : TCfg) (hck : t.cfg.checked = true) (Δ : Env) (hΔ : Writable Δ) (hp : PlainNames t Δ)
    (hx : w.tc = true → NoExactOrdered t Δ) (ms : List DMember) (ex : Bool) (vs : List Val)
    (hc : Consistent Δ ValidUtf8 (Seven w.only7bit) ms vs) (ht : TellApart (Usable t) t.exactAll ex ms vs) (ho : Ordered ms vs)
    (hd1 : ∀ v ∈ vs, v.depth < 2 ^ 32 - 1)
    (hd2 : ∀ m v d x, (m, v) ∈ ms.zip vs → Present m v → Needs ms vs m.ty d x → x.depth < 2 ^ 32 - 1) :
    ∃ out, toJsonDep w Δ ms vs = .ok out ∧
      (out.length < 2 ^ 63 → ∃ f0, ∀ f, f0 ≤ f → fromJsonDep t Δ f ms ex out = .ok (.cls vs)) :=
  dep_round_trip hck hΔ (readable_of hp hx) usable_nameOk rfl hc ht ho hd1 hd2

/-! ### A concrete value -/

theorem exDep_writable : Writable (fun _ => .obj [] false) where
  nodup := exDep_ok
  names := by intro i ms ex h; cases h; simp
  compact := by intro i ms ex h; cases h

theorem exDep_plain (t : TCfg) : PlainNames t (fun _ => .obj [] false) := by
  refine ⟨?_, fun i tag sw alts h => by cases h⟩
  intro i ms ex h
  cases h
  simp

/-- The value `V{ 1, "a" }`. -/
def exDepVs : List Val := [.int 1, .alt 1 (.str asc! "a")]

theorem exDep_zip {m : DMember} {v : Val} (h : (m, v) ∈ exDepMs.zip exDepVs) :
    (m = { name := asc! "t", ty := .plain (.int exI32 true) } ∧ v = .int 1) ∨ (m = exDepV ∧ v = .alt 1 (.str asc! "a")) := by
  simpa [exDepMs, exDepVs] using h

theorem exDep_needs {m : DMember} {v : Val} {d : Member} {x : Val} (h : (m, v) ∈ exDepMs.zip exDepVs) (hn : Needs exDepMs exDepVs m.ty d x) :
    d = exDepTag ∧ x = .int 1 := by
  rcases exDep_zip h with ⟨rfl, rfl⟩ | ⟨rfl, rfl⟩
  · exact absurd hn id
  · exact hn

theorem exDep_consistent {T : Bytes → Prop} : Consistent (fun _ => .obj [] false) ValidUtf8 T exDepMs exDepVs where
  visible m v h hv := by
    rcases exDep_zip h with ⟨rfl, rfl⟩ | ⟨rfl, rfl⟩ <;> cases hv
  names := by decide
  length := rfl
  values m v h := by
    rcases exDep_zip h with ⟨rfl, rfl⟩ | ⟨rfl, rfl⟩
    · exact ⟨by simp, by rw [HasTy]; decide⟩
    · refine ⟨1, .str asc! "a", .str true, rfl, by simp, rfl, ?_, by simp [exDepVs, exDepWr], ?_, rfl⟩
      · rw [HasTy]
        exact ⟨[0x61], by decide, by decide⟩
      · simp only [exDepVs, exDepWr, exDepTag, HasTy]
        decide
  agree m v m' v' d d' x x' h h' _ _ hn hn' _ := by
    obtain ⟨rfl, rfl⟩ := exDep_needs h hn
    obtain ⟨rfl, rfl⟩ := exDep_needs h' hn'
    exact ⟨rfl, rfl⟩
  declared m v d x m' v' h _ hn h' he := by
    obtain ⟨rfl, rfl⟩ := exDep_needs h hn
    rcases exDep_zip h' with ⟨rfl, rfl⟩ | ⟨rfl, rfl⟩
    · exact ⟨rfl, rfl, rfl⟩
    · exact absurd he (by decide)

theorem exDep_tell : TellApart (Usable {}) false false exDepMs exDepVs where
  own m hm := by
    simp only [exDepMs, List.mem_cons, List.not_mem_nil, or_false] at hm
    rcases hm with rfl | rfl <;>
      exact ⟨name1_wf (by decide) (by decide) (by decide), usable_own (by simp [exDepMs]) (Or.inl (by unfold PlainName; decide))⟩
  need m v d x h _ hn := by
    obtain ⟨rfl, rfl⟩ := exDep_needs h hn
    exact ⟨name1_wf (by decide) (by decide) (by decide), usable_own (by simp [exDepMs, exDepTag]) (Or.inl (by unfold PlainName; decide)), by simp⟩
  tags m v tag sw wr alts h _ he := by
    obtain ⟨rfl, -⟩ := exDep_needs h (x := wr exDepVs) (d := tag) (by rw [he]; exact ⟨rfl, rfl⟩)
    refine ⟨rfl, fun n hn => ?_, fun m' v' d x h' _ hn => ?_⟩
    · simp only [exDepMs, List.mem_cons, List.not_mem_nil, or_false] at hn
      rcases hn with rfl | rfl
      · exact usable_own (by simp [exDepTag]) (Or.inl (by unfold PlainName; decide))
      · exact ⟨Or.inl (by unfold PlainName; decide), Or.inr (Or.inr (by decide +kernel))⟩
    · obtain ⟨rfl, -⟩ := exDep_needs h' hn
      exact usable_own (by simp) (Or.inl (by unfold PlainName; decide))

/-- Non-vacuity: `V{ 1, "a" }`, pretty printed with trailing commas. -/
example : ∃ out, toJsonDep { pretty := true, tc := true } (fun _ => .obj [] false) exDepMs exDepVs = .ok out ∧
    (out.length < 2 ^ 63 → ∃ f0, ∀ f, f0 ≤ f → fromJsonDep {} (fun _ => .obj [] false) f exDepMs false out = .ok (.cls exDepVs)) := by
  refine C91_round_trip_partial _ {} rfl _ exDep_writable (exDep_plain _) (fun _ => by intro i ms ex h; cases h) exDepMs false exDepVs
    exDep_consistent exDep_tell ?_ (by decide) ?_
  · intro p m v hm hv _
    match p with
    | 0 => cases hm; trivial
    | 1 =>
      cases hm
      refine Or.inr fun j m' v' hj hm' _ => ?_
      obtain rfl : j = 0 := by omega
      cases hm'
      exact Or.inl rfl
    | p + 2 => cases hm
  · intro m v d x h _ hn
    obtain ⟨rfl, rfl⟩ := exDep_needs h hn
    decide

/-- What is written: the tag in front, once. -/
example : toJsonDep {} (fun _ => .obj [] false) exDepMs exDepVs = .ok asc! "{\"t\":1,\"v\":\"a\"}" := by decide +kernel

/-- A sized array and an array of pairs, written and read back. -/
example : toJsonDep {} exKvEnv (exSzMs ++ [{ name := asc! "m", opt := true, ty := .pairs 0 }])
      [.int 2, .cls [.int 2, .arr [.int 1, .int 2]], .some (.arr [.cls [.str asc! "a", .int 7]])]
      = .ok asc! "{\"n\":2,\"v\":[1,2],\"m\":[{\"k\":\"a\",\"v\":7}]}" ∧
    fromJsonDep {} exKvEnv 9 (exSzMs ++ [{ name := asc! "m", opt := true, ty := .pairs 0 }]) false
      asc! "{\"n\":2,\"v\":[1,2],\"m\":[{\"k\":\"a\",\"v\":7}]}"
      = .ok (.cls [.int 2, .cls [.int 2, .arr [.int 1, .int 2]], .some (.arr [.cls [.str asc! "a", .int 7]])]) :=
  ⟨by decide +kernel, by decide +kernel⟩

/-- The members `optional<bool> o; variant<...> v;`, the tag `t` is not a member. -/
def exDepOpt : List DMember := [{ name := asc! "o", opt := true, ty := .plain .bool }, exDepV]

/-- C91 is false of the code for a string (or number) in a variant behind an empty member: nothing is written for that, and in the search for it
the variant is passed over.  The library does not read what it wrote. -/
theorem C91_false_behind_empty_member :
    Consistent (fun _ => .obj [] false) ValidUtf8 (Seven false) exDepOpt [.none, .alt 1 (.str asc! "a")] ∧
    toJsonDep {} (fun _ => .obj [] false) exDepOpt [.none, .alt 1 (.str asc! "a")] = .ok asc! "{\"t\":1,\"v\":\"a\"}" ∧
    fromJsonDep {} (fun _ => .obj [] false) 9 exDepOpt false asc! "{\"t\":1,\"v\":\"a\"}" = .err .invalidString := by
  refine ⟨?_, by decide +kernel, by decide +kernel⟩
  have hz : ∀ m v, (m, v) ∈ exDepOpt.zip [Val.none, .alt 1 (.str asc! "a")] →
      (m = ({ name := asc! "o", opt := true, ty := .plain .bool } : DMember) ∧ v = .none) ∨ (m = exDepV ∧ v = .alt 1 (.str asc! "a")) := fun m v h => by
    simpa [exDepOpt] using h
  have hn : ∀ m v d x, (m, v) ∈ exDepOpt.zip [Val.none, .alt 1 (.str asc! "a")] → Needs exDepOpt [Val.none, .alt 1 (.str asc! "a")] m.ty d x →
      d = exDepTag ∧ x = .int 1 := fun m v d x h hn => by
    rcases hz m v h with ⟨rfl, rfl⟩ | ⟨rfl, rfl⟩
    · exact absurd hn id
    · exact hn
  refine ⟨fun m v h hv => ?_, by decide, rfl, fun m v h => ?_, fun m v m' v' d d' x x' h h' _ _ h1 h2 _ => ?_, fun m v d x m' v' h _ h1 h' he => ?_⟩
  · rcases hz m v h with ⟨rfl, rfl⟩ | ⟨rfl, rfl⟩ <;> cases hv
  · rcases hz m v h with ⟨rfl, rfl⟩ | ⟨rfl, rfl⟩
    · exact Or.inl rfl
    · refine ⟨1, .str asc! "a", .str true, rfl, by simp, rfl, ?_, by simp [exDepWr], ?_, rfl⟩
      · rw [HasTy]
        exact ⟨[0x61], by decide, by decide⟩
      · simp only [exDepWr, exDepTag, HasTy]
        decide
  · obtain ⟨rfl, rfl⟩ := hn m v d x h h1
    obtain ⟨rfl, rfl⟩ := hn m' v' d' x' h' h2
    exact ⟨rfl, rfl⟩
  · obtain ⟨rfl, rfl⟩ := hn m v d x h h1
    rcases hz m' v' h' with ⟨rfl, rfl⟩ | ⟨rfl, rfl⟩ <;> exact absurd he (by decide)

/-- The tag of the first of two variants. -/
def exTagA : List Val → Val
  | [.alt k _, _] => .int k
  | _ => .none

/-- The tag of the second one. -/
def exTagB : List Val → Val
  | [_, .alt k _] => .int k
  | _ => .none

/-- Two variants with the tag `t`, each with its own switcher. -/
def exShared : List DMember :=
  [{ name := asc! "a", ty := .tagged exDepTag exDepSw exTagA [.bool, .arr .bool] },
   { name := asc! "b", ty := .tagged exDepTag exDepSw exTagB [.bool, .arr .bool] }]

/-- C91 is false of the code for two variants that share the name of the tag and hold different alternatives: `to_json` writes the tag
of the first one only, without an error, and what it wrote is rejected. -/
theorem C91_false_for_shared_tag :
    toJsonDep {} (fun _ => .obj [] false) exShared [.alt 0 (.bool true), .alt 1 (.arr [])] = .ok asc! "{\"t\":0,\"a\":true,\"b\":[]}" ∧
    (∀ v, fromJsonDep {} (fun _ => .obj [] false) 9 exShared false asc! "{\"t\":0,\"a\":true,\"b\":[]}" ≠ .ok v) := by
  refine ⟨by decide +kernel, ?_⟩
  have h : fromJsonDep {} (fun _ => .obj [] false) 9 exShared false asc! "{\"t\":0,\"a\":true,\"b\":[]}" = .err .invalidLiteral := by decide +kernel
  intro v hv
  rw [h] at hv
  cases hv

end Verif
