import Verif.Proof.Hash

/-!
# Property C25, and what is true of C24's default mode: member name hashes
-/

namespace Verif

/-- FNV-1a over 32 bit words, as published: start at the offset basis, then for each byte xor and multiply by the
prime.  Natural numbers modulo 2^32. -/
def Spec.fnv1a32 (bs : Bytes) : Nat :=
  bs.foldl (fun h c => (h ^^^ c.toNat) * 16777619 % 4294967296) 2166136261

/-! ## C25 -/

/-- **C25** The hash computed when long names are expected (eight bytes a round, then four, then one) is the hash
computed otherwise, for every name. -/
theorem C25_long_hash_eq (bs : Bytes) : nameHash true bs = nameHash false bs := nameHash_long bs true

/-- **C25** Both are, for names of more than four bytes, the published 32 bit FNV-1a hash. -/
theorem C25_hash_is_fnv1a (long : Bool) (bs : Bytes) (h : 4 < bs.length) :
    (nameHash long bs).toNat = Spec.fnv1a32 bs := by
  rw [nameHash_long]
  have key : ∀ (cs : Bytes) (a : UInt32) (n : Nat), a.toNat = n →
      (cs.foldl fnvStep a).toNat = cs.foldl (fun h c => (h ^^^ c.toNat) * 16777619 % 4294967296) n := by
    intro cs
    induction cs with
    | nil => intro a n h; simpa using h
    | cons c cs ih =>
      intro a n h
      simp only [List.foldl_cons]
      refine ih _ _ ?_
      simp only [fnvStep, UInt32.toNat_mul, UInt32.toNat_xor, UInt8.toNat_toUInt32, h]
      rfl
  unfold nameHash
  rw [if_neg (by omega)]
  simp only [fnv1a, Bool.false_eq_true, if_false, fnvBytes_eq_foldl]
  exact key bs _ _ rfl

/-- Non-vacuity: a name of 21 bytes, which takes two rounds of eight, one of four and one single byte
(`a_rather_long_member!`). -/
example : nameHash true [0x61, 0x5F, 0x72, 0x61, 0x74, 0x68, 0x65, 0x72, 0x5F, 0x6C, 0x6F, 0x6E, 0x67, 0x5F, 0x6D, 0x65, 0x6D, 0x62, 0x65, 0x72, 0x21] = 335992116 := by
  decide +kernel

/-! ## What the hash decides about names -/

/-- Names of at most four bytes, none of them NUL, never collide with each other. -/
theorem C24_short_names_never_collide {a b : Bytes} (ha : a.length ≤ 4) (hb : b.length ≤ 4)
    (za : ∀ c ∈ a, c ≠ 0) (zb : ∀ c ∈ b, c ≠ 0) (l : Bool) (h : nameHash l a = nameHash false b) : a = b :=
  nameHash_short_inj ha hb za zb l false h

/-- Non-vacuity: `name` and `nome` have different hashes. -/
example : nameHash false [0x6E, 0x61, 0x6D, 0x65] ≠ nameHash false [0x6E, 0x6F, 0x6D, 0x65] := by decide +kernel

/-- Longer names do collide: `costarring` and `liquid`. -/
theorem C24_long_names_collide : ∃ a b : Bytes, a ≠ b ∧ nameHash false a = nameHash false b :=
  ⟨[0x63, 0x6F, 0x73, 0x74, 0x61, 0x72, 0x72, 0x69, 0x6E, 0x67], [0x6C, 0x69, 0x71, 0x75, 0x69, 0x64],
    by decide +kernel⟩

end Verif
