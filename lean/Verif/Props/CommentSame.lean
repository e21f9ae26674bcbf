import Verif.Props.CommentTyped
import Verif.Proof.CommentSameMain

/-!
# C108: a comment policy changes nothing for texts without the comment character
-/

namespace Verif

open Spec

/-- The characters that mean something else under a policy: `/` for `CppCommentParsePolicy`, `#` for `HashCommentParsePolicy`, the characters taken
for whitespace (1 to 32) for `MinifiedDocument::yes`. -/
def Spec.Special : Cmt → UInt8 → Prop
  | .cpp, c => c = 0x2F
  | .hash, c => c = 0x23
  | .mini, c => 1 ≤ c.toNat ∧ c.toNat ≤ 32

instance (p : Cmt) (c : UInt8) : Decidable (Special p c) := by
  cases p <;> (unfold Special; infer_instance)

theorem clean_of_not_special {p : Cmt} {bs : Bytes} (h : ∀ c ∈ bs, ¬ Special p c) : Cl p bs := by
  intro c hc
  cases p
  · exact h c hc
  · exact h c hc
  · cases e : isSpace c
    · exact e
    · exact absurd ((isSpace_iff c).1 e) (h c hc)

/-- **C108.**  For every text, valid or not, in which the character that begins a comment (for a minified document: whitespace) does not occur, and
every type of the model: checked `from_json<T>` with the policy gives a value exactly if it does without it, and the same value. -/
theorem C108_same_values (p : Cmt) (t : TCfg) (hck : t.cfg.checked = true) (Δ : Env) (f : Nat) (ty : Ty) (bs : Bytes)
    (h : ∀ c ∈ bs, ¬ Special p c) (v : Val) : fromJsonC p t Δ f ty bs = .ok v ↔ fromJson t Δ f ty bs = .ok v :=
  (fromJson_same p hck Δ f ty (clean_of_not_special h)).ok_iff v

/-- **C108.**  Texts that the default policy rejects are not turned into values by a comment policy. -/
theorem C108_same_rejections (p : Cmt) (t : TCfg) (hck : t.cfg.checked = true) (Δ : Env) (f : Nat) (ty : Ty) (bs : Bytes)
    (h : ∀ c ∈ bs, ¬ Special p c) (e : Err) (he : fromJson t Δ f ty bs = .err e) (v : Val) : fromJsonC p t Δ f ty bs ≠ .ok v := by
  rw [Ne, C108_same_values p t hck Δ f ty bs h v, he]
  simp

/-! ### Non-vacuity -/

example : fromJsonC .hash {} exEnv 9 (.ref 0) (asc! "{\"x\":[{}] , \"a\": -12}") = .ok (.cls [.int (-12), .none, .none]) :=
  (C108_same_values .hash {} rfl exEnv 9 (.ref 0) _ (by decide) _).2 (by decide +kernel)

example (v : Val) : fromJsonC .cpp {} exEnv 9 (.ref 0) (asc! "{\"x\":[{}] , \"a\" -12}") ≠ .ok v :=
  C108_same_rejections .cpp {} rfl exEnv 9 (.ref 0) _ (by decide) .invalidMemberName (by decide +kernel) v

/-- The condition is needed: with a comment the two policies differ. -/
theorem C108_comment_matters :
    fromJsonC .hash {} exEnv 9 (.arr (.int exI32 false)) (asc! "[1#c\n]") = .ok (.arr [.int 1]) ∧
    fromJson {} exEnv 9 (.arr (.int exI32 false)) (asc! "[1#c\n]") = .err .invalidEndOfValue := by decide +kernel

end Verif
