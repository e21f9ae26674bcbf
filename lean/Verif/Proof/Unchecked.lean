import Verif.Model.Unchecked
import Verif.Proof.TypedTop

/-!
# `from_json` without checks on documents of the type
-/

namespace Verif

open Spec

section
variable {t : TCfg} {Δ : Env} {nm : List Bytes → Bytes → Prop} {ea tc : Bool}
  (hu : ∀ i, (Δ i).wide = true) (henv : EnvOk Δ)
  (hnm : ∀ N n, nm N n → NameOk t N n ∧ (PlainName n ∨ t.escNames = true)) (hea : ea = t.exactAll)
include hu henv hnm hea

/-- The text `d`, white space, and the memory `m`. -/
theorem fromJsonMem_reads {ty : Ty} {d : JVal} {v : Val} (h : Reads Δ nm ea ty d v) (hd : DOk tc d)
    (hw : ty.wide = true) (hv : v.noNone = true) (k m : Bytes) (hk : IsWs k) (hm : Nonsp m)
    (hc : d.ends v = false → AfterValue (k ++ m)) :
    ∃ f0, ∀ f, f0 ≤ f → ∃ r, parseU t Δ f ty (d.text ++ (k ++ m)) = .ok (v, r) ∧ TrimEq r (k ++ m) := by
  obtain ⟨f0, hf0⟩ := reads_semM (Or.inr hu) henv hnm hea h hd (Or.inr ⟨hw, hv⟩)
  have hne : k ++ m ≠ [] := by
    intro h
    obtain rfl := (List.append_eq_nil_iff.1 h).2
    exact hm rfl
  refine ⟨f0, fun f hf => (hf0 f hf).1 (k ++ m) (fun h => ⟨hc h, fun h => absurd h hne⟩) fun _ => ?_⟩
  unfold Nonsp
  rw [trimChecked_ws k m hk]
  exact hm

end

/-- The final `trim_left` ends in the memory behind the text. -/
theorem trim_mem {cfg : Cfg} {k m r : Bytes} (hk : IsWs k) (hm : Nonsp m) (h : TrimEq r (k ++ m)) :
    ∃ r', trim cfg r = .ok r' ∧ r'.length ≤ m.length := by
  have h1 : trimChecked r = trimChecked m := by rw [trimChecked_trimEq h, trimChecked_ws k m hk]
  have hs := trimChecked_suffix m
  refine ⟨trimChecked m, ?_, hs.length_le⟩
  exact trim_of h1 hm

/-- A byte that is not white space. -/
theorem nonsp_of_mem {m : Bytes} {c : UInt8} (hc : c ∈ m) (hs : isSpace c = false) : Nonsp m := by
  unfold Nonsp
  induction m with
  | nil => simp at hc
  | cons d ds ih =>
    unfold trimChecked
    split
    · rename_i hd
      rcases List.mem_cons.1 hc with rfl | hc
      · rw [hs] at hd; simp at hd
      · exact ih hc
    · simp

end Verif
