import Verif.Props.Leading
import Verif.Props.Dep
import Verif.Props.Container

/-!
# C93 for classes with members that depend on others, and for arrays of a fixed size
-/

namespace Verif

open Spec

/-- **C93, partial.**  Whitespace in front of a text that begins with a bracket or brace changes nothing for classes with tagged variants, sized arrays and
key-value arrays, whose members look for others from the start of the object, and for arrays of a fixed size. -/
theorem C93_dependent_and_fixed_partial (t : TCfg) (Δ : Env) (f : Nat) (w s : Bytes) (hw : IsWs w) (hs : OpensWith s) :
    (∀ ms ex, fromJsonDep t Δ f ms ex (w ++ s) = fromJsonDep t Δ f ms ex s) ∧
      ∀ ty dflt n, fromJsonFix t Δ f ty dflt n (w ++ s) = fromJsonFix t Δ f ty dflt n s := by
  obtain ⟨h1, h2⟩ := hs.dropNul (w := w)
  have hne : s.isEmpty = false := by obtain ⟨r, rfl | rfl⟩ := hs <;> rfl
  have hne' : (w ++ s).isEmpty = false := by obtain ⟨r, rfl | rfl⟩ := hs <;> cases w <;> rfl
  generalize hb : (if s.getLast? = some 0 then s.dropLast else s) = b at h1 h2
  obtain ⟨e1, e2⟩ := h2.trims hw t.cfg
  have hbe : b.isEmpty = false := by obtain ⟨r, rfl | rfl⟩ := h2 <;> rfl
  have hbe' : (w ++ b).isEmpty = false := by obtain ⟨r, rfl | rfl⟩ := h2 <;> cases w <;> rfl
  refine ⟨fun ms ex => ?_, fun ty dflt n => ?_⟩
  · have hp : parseDep t Δ f ms ex (w ++ b) = parseDep t Δ f ms ex b := by unfold parseDep; rw [e1, e2, hbe, hbe']
    unfold fromJsonDep; dsimp only; rw [h1, hb, hp, hne, hne']
  · have hp : parseFixArr t.cfg (parseU t Δ f ty) dflt n (w ++ b) = parseFixArr t.cfg (parseU t Δ f ty) dflt n b := by unfold parseFixArr; rw [e1, e2]
    unfold fromJsonFix fromJsonBy; rw [h1, hb, hp, hne, hne']

/-- Non-vacuity: the variant stands in front of its tag, which is looked for from the brace, and whitespace in front of the object. -/
example : fromJsonDep {} (fun _ => .obj [] false) 9 exDepMs false (asc! " \n" ++ asc! "{\"v\":[7],\"t\":2}") =
      .ok (.cls [.int 2, .alt 2 (.arr [.int 7])]) ∧
    fromJsonFix {} (fun _ => .obj [] false) 9 (.int exI32 false) (.int 0) 2 (asc! " \t" ++ asc! "[7]") = .ok (.arr [.int 7, .int 0]) := by
  refine ⟨?_, ?_⟩
  · rw [(C93_dependent_and_fixed_partial {} _ 9 asc! " \n" asc! "{\"v\":[7],\"t\":2}" (by unfold IsWs isWsByte; decide) ⟨_, .inr rfl⟩).1]
    decide +kernel
  · rw [(C93_dependent_and_fixed_partial {} _ 9 asc! " \t" asc! "[7]" (by unfold IsWs isWsByte; decide) ⟨_, .inl rfl⟩).2]
    decide +kernel

end Verif
