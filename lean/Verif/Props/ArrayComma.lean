import Verif.Props.Output

/-!
# Property C74 with trailing commas
-/

namespace Verif

open Spec

/-- The calls of `to_json_array` spell the elements between brackets, without a trailing comma whatever the options are. -/
theorem arrayCalls_rep_any (w : WCfg) (Δ : Env) (ty : Ty) (vs : List Val) :
    Rep False (arrayCalls w Δ ty vs)
      ((writeElems w Δ 1 ty vs).bind fun t => .ok ([chLBrack] ++ (t ++ ((if vs.isEmpty then [] else nextMember w 0) ++ [chRBrack])))) := by
  have hn : PutsAscii (if vs.isEmpty then [] else newlineOps w) ∧
      opsText (if vs.isEmpty then [] else newlineOps w) = (if vs.isEmpty then [] else nextMember w 0) := by
    split
    · exact ⟨putsAscii_nil, rfl⟩
    · exact ⟨newlineOps_ascii w, newlineOps_text w⟩
  unfold arrayCalls
  refine Rep.congr (rep_pre (t := [chLBrack]) (putsAscii_put (by decide)) rfl
    (rep_post (t := (if vs.isEmpty then [] else nextMember w 0) ++ [chRBrack]) (putsAscii_append hn.1 (putsAscii_put (by decide))) ?_
      (opsElems_rep 1 ty vs False.elim))) ?_
  · rw [opsText_append, hn.2]
    rfl
  · cases writeElems w Δ 1 ty vs <;> simp [Res.bind]

/-- **C74 is false of the code** with `OutputTrailingComma::Yes`, for every container that is not empty: `to_json_array` writes the text of `to_json`
without the comma behind the last element. -/
theorem C74_false_for_every_trailing_comma (w : WCfg) (htc : w.tc = true) (Δ : Env) (ty : Ty) (vs : List Val) (hne : vs ≠ []) (T s : Bytes)
    (hT : toJson w Δ (.arr ty) (.arr vs) = .ok T) :
    ∃ pre post, T = pre ++ 0x2C :: post ∧ 0x2C ∉ post ∧ toJsonArrayTo contSink w Δ ty vs s = (s ++ (pre ++ post), .ok ()) := by
  have he : vs.isEmpty = false := by cases vs with
    | nil => exact absurd rfl hne
    | cons _ _ => rfl
  have hr := arrayCalls_rep_any w Δ ty vs
  rw [toJson, writeVal] at hT
  cases hw : writeElems w Δ 1 ty vs with
  | ok t =>
    rw [hw] at hT hr
    simp only [Res.ok_bind, he, closing, trailing, htc] at hT
    simp [Res.bind, he] at hr
    refine ⟨[chLBrack] ++ t, nextMember w 0 ++ [chRBrack], ?_, ?_, ?_⟩
    · simp at hT
      rw [← hT]; simp
    · unfold nextMember
      have h0 : outputIndent w.indent 0 = [] := by cases w.indent <;> simp [outputIndent]
      rw [h0]
      split <;> (try split) <;> simp
    · rw [toJsonArrayTo, Sink.runCalls, appendRun contCall, hr.text _ rfl, hr.ends]
      simp [Res.bind]
  | err e => rw [hw] at hT; simp at hT
  | ub => rw [hw] at hT; simp at hT

example : (toJson { tc := true } exOutEnv (.arr (.ref 0)) (.arr [exOutVal, exOutVal])).isOk = true := by decide +kernel

end Verif
