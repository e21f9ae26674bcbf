import Verif.Props.Str

/-!
# Property C48: high bytes anywhere but behind a backslash
-/

namespace Verif

open Spec

/-- **C48 is false of the code** for every well formed string with bytes above 0x7F, in checked mode too: `DisallowHigh` and `AllowFull` read the same. -/
theorem C48_false_for_every_string (cfg : Cfg) (b s c : Bytes) (h : Unesc b s) (hl : b.length < 2 ^ 63) (hh : ∃ x ∈ b, 0x7F < x.toNat) :
    parseStr cfg false (0x22 :: (b ++ 0x22 :: c)) = .ok (s, c) ∧ parseStr cfg true (0x22 :: (b ++ 0x22 :: c)) = .ok (s, c) := by
  have hne : b ≠ [] := by
    obtain ⟨x, hx, -⟩ := hh
    rintro rfl
    simp at hx
  exact ⟨C11_escapes_decode cfg false b s h hl (Or.inr (Or.inr hne)) c, C11_escapes_decode cfg true b s h hl (Or.inl rfl) c⟩

/-- `a\né` -/
example : ∃ b s : Bytes, Unesc b s ∧ (∃ x ∈ b, 0x7F < x.toNat) ∧ b ≠ s :=
  ⟨[0x61, 0x5C, 0x6E, 0xC3, 0xA9], [0x61, 0x0A, 0xC3, 0xA9],
    .plain (by decide) (by decide) (by decide) (.esc (by unfold isSimpleEsc; decide) (.plain (by decide) (by decide) (by decide)
      (.plain (by decide) (by decide) (by decide) .nil))), ⟨0xC3, by decide, by decide⟩, by decide⟩

end Verif
