import Verif.Spec.Json

/-!
# Unicode: scalar values, UTF-8, and the meaning of JSON string bodies
-/

namespace Verif.Spec

/-- A Unicode scalar value: a code point outside the surrogate range. -/
def IsScalar (n : Nat) : Prop := n < 0x110000 ∧ ¬ (0xD800 ≤ n ∧ n ≤ 0xDFFF)

instance (n : Nat) : Decidable (IsScalar n) := by unfold IsScalar; infer_instance

/-- UTF-8 encoding of a number below 0x110000 (RFC 3629, section 3). -/
def utf8Enc (n : Nat) : Verif.Bytes :=
  if n < 0x80 then [UInt8.ofNat n]
  else if n < 0x800 then [UInt8.ofNat (0xC0 + n / 64), UInt8.ofNat (0x80 + n % 64)]
  else if n < 0x10000 then
    [UInt8.ofNat (0xE0 + n / 4096), UInt8.ofNat (0x80 + n / 64 % 64), UInt8.ofNat (0x80 + n % 64)]
  else
    [UInt8.ofNat (0xF0 + n / 262144), UInt8.ofNat (0x80 + n / 4096 % 64), UInt8.ofNat (0x80 + n / 64 % 64),
      UInt8.ofNat (0x80 + n % 64)]

/-- The UTF-8 encoding of a sequence of scalar values. -/
def utf8 (l : List Nat) : Verif.Bytes := l.flatMap utf8Enc

/-- Valid UTF-8. -/
def ValidUtf8 (bs : Verif.Bytes) : Prop := ∃ l, (∀ n ∈ l, IsScalar n) ∧ bs = utf8 l

/-- The value of a hexadecimal digit, either case. -/
def hexVal (c : UInt8) : Nat :=
  if c ≤ 0x39 then c.toNat - 0x30 else if c ≤ 0x46 then c.toNat - 0x41 + 10 else c.toNat - 0x61 + 10

/-- Four hexadecimal digits. -/
def hex4 (a b c d : UInt8) : Nat := ((hexVal a * 16 + hexVal b) * 16 + hexVal c) * 16 + hexVal d

/-- The character a two-character escape stands for. -/
def escChar (c : UInt8) : UInt8 :=
  if c = 0x62 then 0x08 else if c = 0x66 then 0x0C else if c = 0x6E then 0x0A else if c = 0x72 then 0x0D
  else if c = 0x74 then 0x09 else c

/-- `Unesc b s`: the JSON string body `b` stands for the bytes `s` (RFC 8259, section 7). Escapes `\uXXXX` must name a scalar
value, alone or as a surrogate pair. -/
inductive Unesc : Verif.Bytes → Verif.Bytes → Prop
  | nil : Unesc [] []
  | plain {c b s} : 0x20 ≤ c → c ≠ 0x22 → c ≠ 0x5C → Unesc b s → Unesc (c :: b) (c :: s)
  | esc {c b s} : isSimpleEsc c → Unesc b s → Unesc (0x5C :: c :: b) (escChar c :: s)
  | uni {x y z w b s} : IsHex x → IsHex y → IsHex z → IsHex w → IsScalar (hex4 x y z w) → Unesc b s →
      Unesc (0x5C :: 0x75 :: x :: y :: z :: w :: b) (utf8Enc (hex4 x y z w) ++ s)
  | pair {x y z w x' y' z' w' b s} : IsHex x → IsHex y → IsHex z → IsHex w →
      IsHex x' → IsHex y' → IsHex z' → IsHex w' →
      (0xD800 ≤ hex4 x y z w ∧ hex4 x y z w ≤ 0xDBFF) →
      (0xDC00 ≤ hex4 x' y' z' w' ∧ hex4 x' y' z' w' ≤ 0xDFFF) → Unesc b s →
      Unesc (0x5C :: 0x75 :: x :: y :: z :: w :: 0x5C :: 0x75 :: x' :: y' :: z' :: w' :: b)
        (utf8Enc (0x10000 + (hex4 x y z w - 0xD800) * 0x400 + (hex4 x' y' z' w' - 0xDC00)) ++ s)

/-- Text whose quotes are all preceded by an (unpaired) backslash: what can stand between the quotes of a
string token, well formed or not. -/
inductive IsRaw : Verif.Bytes → Prop
  | nil : IsRaw []
  | plain {c b} : c ≠ 0x22 → c ≠ 0x5C → IsRaw b → IsRaw (c :: b)
  | esc {c b} : IsRaw b → IsRaw (0x5C :: c :: b)

end Verif.Spec
