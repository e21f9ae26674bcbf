import Verif.Proof.Minified
import Verif.Props.CommentSame
import Verif.Props.Write

/-!
# Property C110: documents declared to be minified

`fromJsonC .mini` is `from_json` with `MinifiedDocument::yes`: whitespace is not skipped.  Every theorem about documents holds for a stack that is
deep enough (`∃ f0, ∀ f ≥ f0`).
-/

namespace Verif

open Spec

/-- **C110.**  With `MinifiedDocument::yes` and checks, `from_json<T>` gives the value that a document means (`Reads`, which is also what it
gives without the option, C50), if nothing stands between the tokens of the document; names and strings may hold whitespace. -/
theorem C110_reads (t : TCfg) (hck : t.cfg.checked = true) (Δ : Env) (henv : EnvOk Δ) (ty : Ty) (d : JVal) (v : Val) (hr : Reads Δ (Usable t) t.exactAll ty d v)
    (hw : d.WF) (hg : d.NoGaps) (hf : d.Fits) (he : EndsWell d v) :
    ∃ f0, ∀ f, f0 ≤ f → fromJsonC .mini t Δ f ty d.text = .ok v := by
  obtain ⟨f0, h⟩ := fromJsonC_reads polMini t hck Δ henv ty (Or.inl fun g h => by simp [h]) d v hr (noGaps_wfc _ d hw hg) hf [] ⟨rfl, by simp⟩ (by simp) fun _ => he
  exact ⟨f0, fun f hf => by simpa using h f hf⟩

/-- **C110.**  What `to_json` writes without formatting and trailing commas can be read with `MinifiedDocument::yes`, and is the value again.
Raw JSON in the value must itself be minified. -/
theorem C110_round_trip (w : WCfg) (hp : w.pretty = false) (htc : w.tc = false) (t : TCfg) (hck : t.cfg.checked = true) (Δ : Env)
    (hΔ : Writable Δ) (hpn : PlainNames t Δ) (ty : Ty) (v : Val)
    (hv : HasTy Δ ValidUtf8 (Seven w.only7bit) ty v) (hm : HasTy Δ ValidUtf8 MinText ty v) (hdep : v.depth < 2 ^ 32) (hb : v.bare = false) :
    ∃ out, toJson w Δ ty v = .ok out ∧
      (out.length < 2 ^ 63 → ∃ f0, ∀ f, f0 ≤ f → fromJsonC .mini t Δ f ty out = .ok v) := by
  obtain ⟨d, hd⟩ := layVal_ok (w := w) 0 ty v hv
  refine ⟨d.text, ?_, fun hl => ?_⟩
  · rw [toJson, writeVal_text hΔ 0 ty v hv, hd]
    rfl
  · have hr := layVal_reads hΔ (readable_of hpn fun h => by simp [htc] at h) 0 ty v hv hd
    have hdd := layVal_depth 0 ty v hd
    have hwf := layVal_wf hΔ 0 ty v hv hd
    rw [htc] at hwf
    exact C110_reads t hck Δ hΔ.nodup ty d v hr hwf (layVal_ng hp htc (fun _ h => h) 0 ty v hm hd) ⟨by omega, hl⟩
      (endsWell_of hb)

/-- **C110.**  For every text without whitespace, valid or not, and every type of the model: checked `from_json<T>` gives a value with
`MinifiedDocument::yes` exactly if it does without, and the same value. -/
theorem C110_same_values (t : TCfg) (hck : t.cfg.checked = true) (Δ : Env) (f : Nat) (ty : Ty) (bs : Bytes)
    (h : ∀ c ∈ bs, c = 0 ∨ 32 < c.toNat) (v : Val) : fromJsonC .mini t Δ f ty bs = .ok v ↔ fromJson t Δ f ty bs = .ok v := by
  refine C108_same_values .mini t hck Δ f ty bs (fun c hc hs => ?_) v
  obtain ⟨h1, h2⟩ : 1 ≤ c.toNat ∧ c.toNat ≤ 32 := hs
  rcases h c hc with rfl | h
  · simp at h1
  · omega

/-! ### Non-vacuity -/

/-- `{"x y":[7],"a":-12}` -/
def exMinDoc : JVal := .obj [] (.cons [] [0x78, 0x20, 0x79] [] [] (.arr [] (.cons [] (.num [0x37]) [] .nil)) [] (.cons [] [0x61] [] [] exNum [] .nil))

theorem exMinDoc_reads : Reads exEnv (Usable {}) false (.ref 0) exMinDoc (.cls [.int (-12), .none, .none]) := by
  refine .obj (ms := exMs) (ex := false) rfl ?_ ?_ (by simp) ?_
  · intro n hn
    have : n = [0x78, 0x20, 0x79] ∨ n = [0x61] := by simpa [JMems.names, JMems.toList] using hn
    rcases this with rfl | rfl
    · exact ⟨Or.inl (by unfold PlainName; decide), Or.inr (Or.inr (by decide +kernel))⟩
    · exact exUsable _ (by simp)
  · intro m hm
    simp only [exMs, List.mem_cons, List.not_mem_nil, or_false] at hm
    rcases hm with rfl | rfl | rfl <;> simp [JMems.names, JMems.toList]
  · refine .found (d := exNum) rfl (.int (by decide) (by decide) exNum_numeral) ?_
    exact .absent (by simp [JMems.get?, JMems.toList]) rfl (.absent (by simp [JMems.get?, JMems.toList]) rfl .nil)

theorem exMinDoc_wf : exMinDoc.WF :=
  have hb : IsStrBody [0x78, 0x20, 0x79] := by
    simpa using isStrBody_plain (l := [0x78, 0x20, 0x79]) (by unfold IsPlain; decide) .nil
  ⟨Or.inl ws_empty, ws_empty, hb, ws_empty, ws_empty,
    ⟨Or.inl ws_empty, ws_empty, num1_wf (by constructor <;> decide) (by decide), ws_empty, trivial⟩, ws_empty,
    ws_empty, name1_wf (by decide) (by decide) (by decide), ws_empty, ws_empty, exNum_wf, ws_empty, trivial⟩

example : ∃ f0, ∀ f, f0 ≤ f → fromJsonC .mini {} exEnv f (.ref 0) exMinDoc.text = .ok (.cls [.int (-12), .none, .none]) :=
  C110_reads {} rfl exEnv exEnv_ok (.ref 0) _ _ exMinDoc_reads exMinDoc_wf
    (by simp [exMinDoc, exNum, JVal.NoGaps, JMems.NoGaps, JElems.NoGaps]) ⟨by decide, by decide⟩ ⟨rfl, by simp [Val.bareReal]⟩

example : ∃ out, toJson {} exEnv (.ref 0) exVal = .ok out ∧
    (out.length < 2 ^ 63 → ∃ f0, ∀ f, f0 ≤ f → fromJsonC .mini {} exEnv f (.ref 0) out = .ok exVal) :=
  C110_round_trip {} rfl rfl {} rfl exEnv exEnv_writable (exEnv_plain _) (.ref 0) exVal exVal_hasTy exVal_hasTy
    (by decide) rfl

example (v : Val) : fromJsonC .mini {} exEnv 9 (.ref 0) (asc! "{\"x\":[{}],\"a\"-12}") ≠ .ok v := by
  rw [Ne, C110_same_values {} rfl exEnv 9 (.ref 0) _ (by decide)]
  have : fromJson {} exEnv 9 (.ref 0) (asc! "{\"x\":[{}],\"a\"-12}") = .err .invalidMemberName := by decide +kernel
  rw [this]
  simp

/-- The condition is needed: a document that is not minified is rejected. -/
theorem C110_whitespace_matters :
    fromJsonC .mini {} exEnv 9 (.arr (.int exI32 false)) (asc! "[1, 2]") = .err .invalidNumberStart ∧
    fromJson {} exEnv 9 (.arr (.int exI32 false)) (asc! "[1, 2]") = .ok (.arr [.int 1, .int 2]) := by decide +kernel

end Verif
