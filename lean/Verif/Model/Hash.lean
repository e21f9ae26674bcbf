import Verif.Model.Base

/-!
# Member name hashes

Models `name_hash` and `fnv1a_32` of `daw_murmur3.h`.  `UInt32` is 32 bit arithmetic with wrap-around, as is the
`daw::UInt32` used by the code.
-/

namespace Verif

/-- One round of FNV-1a, `daw_murmur3.h` L38-42 and L64-67. -/
def fnvStep (hash : UInt32) (c : UInt8) : UInt32 := (hash ^^^ c.toUInt32) * 0x01000193

/-- `fnv1a_32_N<N>( ptr, hash )`, `daw_murmur3.h` L35-43, on the first `n` bytes. -/
def fnvN (n : Nat) (hash : UInt32) (bs : Bytes) : UInt32 := (bs.take n).foldl fnvStep hash

/-- The eight-byte loop of `fnv1a_32<true>`, `daw_murmur3.h` L52-57. -/
def fnvBlocks (hash : UInt32) (bs : Bytes) : UInt32 × Bytes :=
  if 8 ≤ bs.length then fnvBlocks (fnvN 8 hash bs) (bs.drop 8) else (hash, bs)
termination_by bs.length
decreasing_by simp; omega

/-- The single-byte loop of `fnv1a_32`, `daw_murmur3.h` L64-67. -/
def fnvBytes (hash : UInt32) : Bytes → UInt32
  | [] => hash
  | c :: cs => fnvBytes (fnvStep hash c) cs

/-- `fnv1a_32<expect_long_strings>`, `daw_murmur3.h` L45-69. -/
def fnv1a (long : Bool) (bs : Bytes) : UInt32 :=
  if long then
    let (h, b) := fnvBlocks 0x811c9dc5 bs
    if 4 ≤ b.length then fnvBytes (fnvN 4 h b) (b.drop 4) else fnvBytes h b
  else fnvBytes 0x811c9dc5 bs

/-- The packing loop of `name_hash`, `daw_murmur3.h` L76-81. -/
def packName (r : UInt32) : Bytes → UInt32
  | [] => r
  | c :: cs => packName ((r <<< 8) ||| c.toUInt32) cs

/-- `name_hash<expect_long_strings>`, `daw_murmur3.h` L71-85. -/
def nameHash (long : Bool) (bs : Bytes) : UInt32 :=
  if bs.length ≤ 4 then packName 0 bs * 0xCC9E2d51 else fnv1a long bs

end Verif
