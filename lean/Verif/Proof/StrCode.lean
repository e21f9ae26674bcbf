import Verif.Model.Str
import Verif.Spec.Utf8
import Verif.Proof.SkipBasic

/-!
# Code points, nibbles and UTF-8
-/

namespace Verif

open Spec

theorem forall_uint8 {P : UInt8 → Prop} (h : ∀ n : Fin 256, P (UInt8.ofNat n.val)) (c : UInt8) : P c := by
  have := h ⟨c.toNat, c.toNat_lt⟩
  simpa using this

theorem toNibble_hex {c : UInt8} (h : IsHex c) : toNibble c = hexVal c ∧ hexVal c < 16 := by
  have key : ∀ n : Fin 256, IsHex (UInt8.ofNat n.val) →
      toNibble (UInt8.ofNat n.val) = hexVal (UInt8.ofNat n.val) ∧ hexVal (UInt8.ofNat n.val) < 16 := by
    unfold IsHex IsDig
    decide +kernel
  exact forall_uint8 (P := fun c => IsHex c → toNibble c = hexVal c ∧ hexVal c < 16) key c h

theorem or_shift {i a b : Nat} (hb : b < 2 ^ i) : (2 ^ i * a) ||| b = 2 ^ i * a + b :=
  (Nat.two_pow_add_eq_or_of_lt hb a).symm

theorem shiftl_or {i a b : Nat} (hb : b < 2 ^ i) : (a <<< i) ||| b = 2 ^ i * a + b := by
  rw [Nat.shiftLeft_eq, Nat.mul_comm, or_shift hb]

theorem fourNibbles_hex (cfg : Cfg) {a b c d : UInt8} (t : Bytes) (ha : IsHex a) (hb : IsHex b) (hc : IsHex c)
    (hd : IsHex d) : fourNibbles cfg (a :: b :: c :: d :: t) = .ok (hex4 a b c d, t) := by
  obtain ⟨a1, a2⟩ := toNibble_hex ha
  obtain ⟨b1, b2⟩ := toNibble_hex hb
  obtain ⟨c1, c2⟩ := toNibble_hex hc
  obtain ⟨d1, d2⟩ := toNibble_hex hd
  have key : ∀ (x y : UInt8) (t : Bytes), toNibble x = hexVal x → hexVal x < 16 → toNibble y = hexVal y →
      hexVal y < 16 → byteFromNibbles cfg (x :: y :: t) = .ok (hexVal x * 16 + hexVal y, t) := by
    intro x y t h1 h2 h3 h4
    unfold byteFromNibbles
    dsimp only
    rw [h1, h3, shiftl_or (by omega)]
    cases cfg.checked <;> simp [h2, h4, Nat.mul_comm]
  unfold fourNibbles
  rw [key a b _ a1 a2 b1 b2, Res.ok_bind]
  dsimp only
  rw [key c d _ c1 c2 d1 d2, Res.ok_bind]
  dsimp only
  rw [shiftl_or (by omega)]
  have : 2 ^ 8 * (hexVal a * 16 + hexVal b) + (hexVal c * 16 + hexVal d) = hex4 a b c d := by
    unfold hex4; omega
  rw [this]

theorem and63 (n : Nat) : n &&& 0x3F = n % 64 := Nat.and_two_pow_sub_one_eq_mod n 6

theorem or128 (n : Nat) : (n &&& 0x3F) ||| 0x80 = 0x80 + n % 64 := by
  rw [and63, Nat.or_comm]
  have := or_shift (i := 7) (a := 1) (b := n % 64) (by omega)
  simpa using this

theorem lead2 {n : Nat} (h : n < 0x800) : (n >>> 6) ||| 0xC0 = 0xC0 + n / 64 := by
  rw [Nat.shiftRight_eq_div_pow, Nat.or_comm]
  have := or_shift (i := 6) (a := 3) (b := n / 2 ^ 6) (by omega)
  simpa using this

theorem lead3 {n : Nat} (h : n < 0x10000) : (n >>> 12) ||| 0xE0 = 0xE0 + n / 4096 := by
  rw [Nat.shiftRight_eq_div_pow, Nat.or_comm]
  have := or_shift (i := 5) (a := 7) (b := n / 2 ^ 12) (by omega)
  simpa using this

theorem lead4 {n : Nat} (h : n < 0x200000) : (n >>> 18) ||| 0xF0 = 0xF0 + n / 262144 := by
  rw [Nat.shiftRight_eq_div_pow, Nat.or_comm]
  have := or_shift (i := 4) (a := 15) (b := n / 2 ^ 18) (by omega)
  simpa using this

theorem encodeWide_eq {n : Nat} (h1 : 0x80 ≤ n) (h2 : n < 0x110000) : encodeWide n = utf8Enc n := by
  unfold encodeWide utf8Enc u32toC
  simp only [or128]
  rw [if_neg (show ¬ n < 0x80 by omega)]
  by_cases h3 : n < 0x800
  · rw [if_neg (by omega), if_neg (by omega), if_pos h3, lead2 h3]
  · rw [if_neg h3]
    by_cases h4 : n < 0x10000
    · rw [if_neg (by omega), if_pos (by omega), if_pos h4, lead3 h4, Nat.shiftRight_eq_div_pow]
    · rw [if_pos (by omega), if_neg h4, lead4 (by omega), Nat.shiftRight_eq_div_pow, Nat.shiftRight_eq_div_pow]

theorem utf32ToUtf8_eq {n : Nat} (h2 : n < 0x110000) : utf32ToUtf8 n = .ok (utf8Enc n) := by
  unfold utf32ToUtf8 utf8Enc toChar
  simp only [or128]
  by_cases h1 : n < 0x80
  · rw [if_pos (by omega), if_pos h1]
  · rw [if_neg (by omega), if_neg h1]
    by_cases h3 : n < 0x800
    · rw [if_pos (by omega), if_pos h3, lead2 h3]
    · rw [if_neg (by omega), if_neg h3]
      by_cases h4 : n < 0x10000
      · rw [if_pos (by omega), if_pos h4, lead3 h4, Nat.shiftRight_eq_div_pow]
      · rw [if_neg (by omega), if_pos (by omega), if_neg h4, lead4 (by omega), Nat.shiftRight_eq_div_pow,
          Nat.shiftRight_eq_div_pow]

/-- The unchecked iterator decodes an encoded scalar. -/
theorem utf8Next_enc {n : Nat} (h : n < 0x110000) (t : Bytes) : utf8Next (utf8Enc n ++ t) = .ok (n, some t) := by
  unfold utf8Enc
  have tn : ∀ k, k < 256 → (UInt8.ofNat k).toNat = k := by
    intro k hk; simp; omega
  split
  · simp only [List.cons_append, List.nil_append, utf8Next]
    rw [tn _ (by omega), if_pos (by omega)]
  · split
    · simp only [List.cons_append, List.nil_append, utf8Next]
      rw [tn _ (by omega), tn _ (by omega), if_neg (by omega), if_pos (by omega)]
      congr 2; omega
    · split
      · simp only [List.cons_append, List.nil_append, utf8Next]
        rw [tn _ (by omega), tn _ (by omega), tn _ (by omega), if_neg (by omega), if_neg (by omega),
          if_pos (by omega)]
        congr 2; omega
      · simp only [List.cons_append, List.nil_append, utf8Next]
        rw [tn _ (by omega), tn _ (by omega), tn _ (by omega), tn _ (by omega), if_neg (by omega),
          if_neg (by omega), if_neg (by omega), if_pos (by omega)]
        congr 2; omega

theorem utf8Enc_ne_nil (n : Nat) : utf8Enc n ≠ [] := by
  unfold utf8Enc; repeat' split
  all_goals simp

theorem utf8Enc_length_le (n : Nat) : (utf8Enc n).length ≤ 4 := by
  unfold utf8Enc; repeat' split
  all_goals simp

/-- All bytes of a multi-byte encoding are at least 0x80. -/
theorem utf8Enc_high {n : Nat} (h1 : 0x80 ≤ n) (h2 : n < 0x110000) : ∀ c ∈ utf8Enc n, 0x80 ≤ c.toNat := by
  have tn : ∀ k, k < 256 → (UInt8.ofNat k).toNat = k := by
    intro k hk; simp; omega
  unfold utf8Enc
  rw [if_neg (by omega)]
  intro c hc
  split at hc
  · simp only [List.mem_cons, List.not_mem_nil, or_false] at hc
    rcases hc with rfl | rfl
    all_goals rw [tn _ (by omega)]; omega
  · split at hc
    · simp only [List.mem_cons, List.not_mem_nil, or_false] at hc
      rcases hc with rfl | rfl | rfl
      all_goals rw [tn _ (by omega)]; omega
    · simp only [List.mem_cons, List.not_mem_nil, or_false] at hc
      rcases hc with rfl | rfl | rfl | rfl
      all_goals rw [tn _ (by omega)]; omega

theorem toNibbleChar_spec {n : Nat} (h : n < 16) : IsHex (toNibbleChar n) ∧ hexVal (toNibbleChar n) = n ∧
    0x30 ≤ (toNibbleChar n).toNat ∧ (toNibbleChar n).toNat ≤ 0x46 := by
  have key : ∀ m : Fin 16, IsHex (toNibbleChar m.val) ∧ hexVal (toNibbleChar m.val) = m.val ∧
      0x30 ≤ (toNibbleChar m.val).toNat ∧ (toNibbleChar m.val).toNat ≤ 0x46 := by
    unfold IsHex IsDig; decide
  exact key ⟨n, h⟩

/-- A byte that stands for itself in a string body. -/
def IsPlain (c : UInt8) : Prop := 0x20 ≤ c ∧ c ≠ 0x22 ∧ c ≠ 0x5C

theorem isPlain_high {c : UInt8} (h : 0x80 ≤ c.toNat) : IsPlain c := by
  refine ⟨?_, ?_, ?_⟩
  · rw [UInt8.le_iff_toNat_le]; exact Nat.le_trans (by decide) h
  · rintro rfl; revert h; decide
  · rintro rfl; revert h; decide

theorem unesc_plain {l b s : Bytes} (hl : ∀ c ∈ l, IsPlain c) (h : Unesc b s) : Unesc (l ++ b) (l ++ s) := by
  induction l with
  | nil => exact h
  | cons c cs ih =>
    obtain ⟨h1, h2, h3⟩ := hl c (by simp)
    exact Unesc.plain h1 h2 h3 (ih (fun x hx => hl x (by simp [hx])))

theorem isStrBody_plain {l b : Bytes} (hl : ∀ c ∈ l, IsPlain c) (h : IsStrBody b) : IsStrBody (l ++ b) := by
  induction l with
  | nil => exact h
  | cons c cs ih =>
    obtain ⟨h1, h2, h3⟩ := hl c (by simp)
    exact IsStrBody.plain h1 h2 h3 (ih (fun x hx => hl x (by simp [hx])))

theorem outputHex_hex4 {n : Nat} (h : n < 65536) :
    ∃ x y z w, outputHex n = [0x5C, 0x75, x, y, z, w] ∧ IsHex x ∧ IsHex y ∧ IsHex z ∧ IsHex w ∧
      hex4 x y z w = n := by
  obtain ⟨a1, a2, -⟩ := toNibbleChar_spec (n := n % 2 ^ 16 / 4096 % 16) (by omega)
  obtain ⟨b1, b2, -⟩ := toNibbleChar_spec (n := n % 2 ^ 16 / 256 % 16) (by omega)
  obtain ⟨c1, c2, -⟩ := toNibbleChar_spec (n := n % 2 ^ 16 / 16 % 16) (by omega)
  obtain ⟨d1, d2, -⟩ := toNibbleChar_spec (n := n % 2 ^ 16 % 16) (by omega)
  refine ⟨_, _, _, _, rfl, a1, b1, c1, d1, ?_⟩
  unfold hex4
  rw [a2, b2, c2, d2]
  omega

theorem outputHex_body (n : Nat) {b : Bytes} (h : IsStrBody b) : IsStrBody (outputHex n ++ b) := by
  obtain ⟨a1, -⟩ := toNibbleChar_spec (n := n % 2 ^ 16 / 4096 % 16) (by omega)
  obtain ⟨b1, -⟩ := toNibbleChar_spec (n := n % 2 ^ 16 / 256 % 16) (by omega)
  obtain ⟨c1, -⟩ := toNibbleChar_spec (n := n % 2 ^ 16 / 16 % 16) (by omega)
  obtain ⟨d1, -⟩ := toNibbleChar_spec (n := n % 2 ^ 16 % 16) (by omega)
  exact IsStrBody.uni a1 b1 c1 d1 h

theorem ofNat_plain {n : Nat} (h1 : 0x20 ≤ n) (h2 : n < 0x80) (h3 : n ≠ 0x22) (h4 : n ≠ 0x5C) :
    IsPlain (UInt8.ofNat n) := by
  have tn : (UInt8.ofNat n).toNat = n := by simp; omega
  refine ⟨?_, ?_, ?_⟩
  · rw [UInt8.le_iff_toNat_le, tn]; exact h1
  · intro h; apply h3; rw [← tn, h]; rfl
  · intro h; apply h4; rw [← tn, h]; rfl

theorem utf8Enc_plain {n : Nat} (h1 : 0x20 ≤ n) (h2 : n < 0x110000) (h3 : n ≠ 0x22) (h4 : n ≠ 0x5C) :
    ∀ c ∈ utf8Enc n, IsPlain c := by
  by_cases h : n < 0x80
  · intro c hc
    unfold utf8Enc at hc
    rw [if_pos h] at hc
    simp only [List.mem_cons, List.not_mem_nil, or_false] at hc
    subst hc
    exact ofNat_plain h1 h h3 h4
  · intro c hc
    exact isPlain_high (utf8Enc_high (by omega) h2 c hc)

/-- What is written for one scalar value stands for its UTF-8 encoding. -/
theorem escapeCp_unesc (r : Bool) {n : Nat} (hn : IsScalar n) :
    ∃ e, escapeCp r n = .ok e ∧ ∀ b s, Unesc b s → Unesc (e ++ b) (utf8Enc n ++ s) := by
  obtain ⟨hn1, hn2⟩ := hn
  have simple : ∀ (c : UInt8), isSimpleEsc c → escChar c = UInt8.ofNat n → n < 0x80 → ∀ b s, Unesc b s →
      Unesc ([chBslash, c] ++ b) (utf8Enc n ++ s) := by
    intro c h1 h2 h3 b s h
    have : utf8Enc n = [escChar c] := by unfold utf8Enc; rw [if_pos h3, h2]
    rw [this]
    exact Unesc.esc h1 h
  have hexCase : n < 65536 → ∀ b s, Unesc b s → Unesc (outputHex n ++ b) (utf8Enc n ++ s) := by
    intro h3 b s h
    obtain ⟨x, y, z, w, e1, hx, hy, hz, hw, e2⟩ := outputHex_hex4 h3
    rw [e1]
    have := Unesc.uni hx hy hz hw (by rw [e2]; exact ⟨hn1, hn2⟩) h
    rw [e2] at this
    exact this
  unfold escapeCp
  by_cases h0 : n = 0x22
  · rw [if_pos h0]; exact ⟨_, rfl, simple 0x22 (by simp [isSimpleEsc]) (by subst h0; decide) (by omega)⟩
  rw [if_neg h0]
  by_cases h1 : n = 0x5C
  · rw [if_pos h1]; exact ⟨_, rfl, simple 0x5C (by simp [isSimpleEsc]) (by subst h1; decide) (by omega)⟩
  rw [if_neg h1]
  by_cases h2 : n = 0x08
  · rw [if_pos h2]; exact ⟨_, rfl, simple 0x62 (by simp [isSimpleEsc]) (by subst h2; decide) (by omega)⟩
  rw [if_neg h2]
  by_cases h3 : n = 0x0C
  · rw [if_pos h3]; exact ⟨_, rfl, simple 0x66 (by simp [isSimpleEsc]) (by subst h3; decide) (by omega)⟩
  rw [if_neg h3]
  by_cases h4 : n = 0x0A
  · rw [if_pos h4]; exact ⟨_, rfl, simple 0x6E (by simp [isSimpleEsc]) (by subst h4; decide) (by omega)⟩
  rw [if_neg h4]
  by_cases h5 : n = 0x0D
  · rw [if_pos h5]; exact ⟨_, rfl, simple 0x72 (by simp [isSimpleEsc]) (by subst h5; decide) (by omega)⟩
  rw [if_neg h5]
  by_cases h6 : n = 0x09
  · rw [if_pos h6]; exact ⟨_, rfl, simple 0x74 (by simp [isSimpleEsc]) (by subst h6; decide) (by omega)⟩
  rw [if_neg h6]
  by_cases h7 : n < 0x20
  · rw [if_pos h7]; exact ⟨_, rfl, hexCase (by omega)⟩
  rw [if_neg h7]
  by_cases h8 : r = true ∧ 0x7F ≤ n ∧ n ≤ 0xFFFF
  · rw [if_pos h8]; exact ⟨_, rfl, hexCase (by omega)⟩
  rw [if_neg h8]
  by_cases h9 : r = true ∧ 0xFFFF < n
  · rw [if_pos h9]
    refine ⟨_, rfl, ?_⟩
    intro b s h
    have hand : n &&& 0x3FF = n % 1024 := Nat.and_two_pow_sub_one_eq_mod n 10
    rw [Nat.shiftRight_eq_div_pow, hand]
    obtain ⟨x, y, z, w, e1, hx, hy, hz, hw, e2⟩ := outputHex_hex4 (n := 0xD7C0 + n / 2 ^ 10) (by omega)
    obtain ⟨x', y', z', w', e1', hx', hy', hz', hw', e2'⟩ := outputHex_hex4 (n := 0xDC00 + n % 1024) (by omega)
    rw [e1, e1']
    have := Unesc.pair hx hy hz hw hx' hy' hz' hw' (by omega) (by omega) h
    rw [e2, e2', show 0x10000 + (0xD7C0 + n / 2 ^ 10 - 0xD800) * 0x400 + (0xDC00 + n % 1024 - 0xDC00) = n by omega] at this
    exact this
  rw [if_neg h9, utf32ToUtf8_eq hn1]
  refine ⟨_, rfl, ?_⟩
  intro b s h
  exact unesc_plain (utf8Enc_plain (by omega) hn1 h0 h1) h

/-- Whatever is written for a code point, even one that is not a scalar value, is part of a string body. -/
theorem escapeCp_body (r : Bool) (n : Nat) {e : Bytes} (he : escapeCp r n = .ok e) {b : Bytes} (h : IsStrBody b) :
    IsStrBody (e ++ b) := by
  unfold escapeCp at he
  by_cases h0 : n = 0x22
  · rw [if_pos h0] at he; cases he; exact IsStrBody.esc (by simp [isSimpleEsc]) h
  rw [if_neg h0] at he
  by_cases h1 : n = 0x5C
  · rw [if_pos h1] at he; cases he; exact IsStrBody.esc (by simp [isSimpleEsc]) h
  rw [if_neg h1] at he
  split at he
  · cases he; exact IsStrBody.esc (by simp [isSimpleEsc]) h
  split at he
  · cases he; exact IsStrBody.esc (by simp [isSimpleEsc]) h
  split at he
  · cases he; exact IsStrBody.esc (by simp [isSimpleEsc]) h
  split at he
  · cases he; exact IsStrBody.esc (by simp [isSimpleEsc]) h
  split at he
  · cases he; exact IsStrBody.esc (by simp [isSimpleEsc]) h
  split at he
  · cases he; exact outputHex_body n h
  split at he
  · cases he; exact outputHex_body n h
  split at he
  · cases he
    rw [List.append_assoc]
    exact outputHex_body _ (outputHex_body _ h)
  by_cases h2 : n < 0x110000
  · rw [utf32ToUtf8_eq h2] at he
    cases he
    exact isStrBody_plain (utf8Enc_plain (by omega) h2 h0 h1) h
  · unfold utf32ToUtf8 at he
    rw [if_neg (by omega), if_neg (by omega), if_neg (by omega), if_neg (by omega)] at he
    cases he

theorem escapeCp_7bit (n : Nat) {e : Bytes} (he : escapeCp true n = .ok e) :
    ∀ c ∈ e, 0x20 ≤ c.toNat ∧ c.toNat ≤ 0x7E := by
  have hexOk : ∀ m, ∀ c ∈ outputHex m, 0x20 ≤ c.toNat ∧ c.toNat ≤ 0x7E := by
    intro m c hc
    obtain ⟨-, -, a1, a2⟩ := toNibbleChar_spec (n := m % 2 ^ 16 / 4096 % 16) (by omega)
    obtain ⟨-, -, b1, b2⟩ := toNibbleChar_spec (n := m % 2 ^ 16 / 256 % 16) (by omega)
    obtain ⟨-, -, c1, c2⟩ := toNibbleChar_spec (n := m % 2 ^ 16 / 16 % 16) (by omega)
    obtain ⟨-, -, d1, d2⟩ := toNibbleChar_spec (n := m % 2 ^ 16 % 16) (by omega)
    simp only [outputHex, List.mem_cons, List.not_mem_nil, or_false] at hc
    rcases hc with rfl | rfl | rfl | rfl | rfl | rfl
    · decide
    · decide
    all_goals omega
  unfold escapeCp at he
  have two : ∀ c1 c2 : UInt8, (0x20 ≤ c1.toNat ∧ c1.toNat ≤ 0x7E) → (0x20 ≤ c2.toNat ∧ c2.toNat ≤ 0x7E) →
      ∀ c ∈ [c1, c2], 0x20 ≤ c.toNat ∧ c.toNat ≤ 0x7E := by
    intro c1 c2 h1 h2 c hc
    simp only [List.mem_cons, List.not_mem_nil, or_false] at hc
    rcases hc with rfl | rfl
    · exact h1
    · exact h2
  split at he
  · cases he; exact two _ _ (by decide) (by decide)
  split at he
  · cases he; exact two _ _ (by decide) (by decide)
  split at he
  · cases he; exact two _ _ (by decide) (by decide)
  split at he
  · cases he; exact two _ _ (by decide) (by decide)
  split at he
  · cases he; exact two _ _ (by decide) (by decide)
  split at he
  · cases he; exact two _ _ (by decide) (by decide)
  split at he
  · cases he; exact two _ _ (by decide) (by decide)
  split at he
  · cases he; exact hexOk _
  split at he
  · cases he; exact hexOk _
  split at he
  · cases he
    intro c hc
    rw [List.mem_append] at hc
    exact hc.elim (hexOk _ c) (hexOk _ c)
  · rename_i h1 h2 h3
    have : n < 0x7F := by
      rcases Nat.lt_or_ge n 0x7F with h | h
      · exact h
      · exfalso
        rcases Nat.lt_or_ge 0xFFFF n with h' | h'
        · exact h3 ⟨rfl, h'⟩
        · exact h2 ⟨rfl, h, h'⟩
    rw [utf32ToUtf8_eq (by omega)] at he
    cases he
    intro c hc
    unfold utf8Enc at hc
    rw [if_pos (by omega)] at hc
    simp only [List.mem_cons, List.not_mem_nil, or_false] at hc
    subst hc
    have tn : (UInt8.ofNat n).toNat = n := by simp; omega
    rw [tn]; omega

/-! ## The output loop -/

theorem writeStrBody_cons {r e : Bool} {c : UInt8} {cs rest : Bytes} {cp : Nat}
    (h : utf8Next (c :: cs) = .ok (cp, some rest)) :
    writeStrBody r e (c :: cs) = (do
      let x ← escapeCp r cp
      let tl ← writeStrBody r e rest
      .ok (x ++ tl)) := by
  rw [writeStrBody]
  split <;> simp_all

/-- Output of valid UTF-8. -/
theorem writeStrBody_utf8 (r e : Bool) (l : List Nat) (hl : ∀ n ∈ l, IsScalar n) :
    ∃ b, writeStrBody r e (utf8 l) = .ok b ∧ Unesc b (utf8 l) := by
  induction l with
  | nil => exact ⟨[], by rw [utf8, List.flatMap_nil, writeStrBody], Unesc.nil⟩
  | cons n ns ih =>
    obtain ⟨b, h1, h2⟩ := ih (fun m hm => hl m (by simp [hm]))
    obtain ⟨x, h3, h4⟩ := escapeCp_unesc r (hl n (by simp))
    have hu : utf8 (n :: ns) = utf8Enc n ++ utf8 ns := by simp [utf8]
    have hn := utf8Next_enc (hl n (by simp)).1 (utf8 ns)
    refine ⟨x ++ b, ?_, ?_⟩
    · rw [hu]
      cases hq : utf8Enc n ++ utf8 ns with
      | nil => simp [utf8Enc_ne_nil] at hq
      | cons c cs =>
        rw [hq] at hn
        rw [writeStrBody_cons hn, h3, Res.ok_bind, h1, Res.ok_bind]
    · rw [hu]; exact h4 _ _ h2

/-- Whatever the input bytes, what is written is the body of a JSON string, and 7 bit if asked for. -/
theorem writeStrBody_body (r e : Bool) (bs b : Bytes) (h : writeStrBody r e bs = .ok b) :
    IsStrBody b ∧ (r = true → ∀ c ∈ b, 0x20 ≤ c.toNat ∧ c.toNat ≤ 0x7E) := by
  induction hn : bs.length using Nat.strongRecOn generalizing bs b with
  | _ n ih =>
    subst hn
    have main : ∀ (rest : Bytes) (cp : Nat), rest.length < bs.length →
        (do
          let x ← escapeCp r cp
          let tl ← writeStrBody r e rest
          Res.ok (x ++ tl)) = .ok b →
        IsStrBody b ∧ (r = true → ∀ c ∈ b, 0x20 ≤ c.toNat ∧ c.toNat ≤ 0x7E) := by
      intro rest cp hlt h
      simp only [Res.bind_eq_ok] at h
      obtain ⟨x, h1, tl, h2, h3⟩ := h
      cases h3
      obtain ⟨i1, i2⟩ := ih _ hlt rest tl h2 rfl
      refine ⟨escapeCp_body r cp h1 i1, ?_⟩
      intro hr c hc
      subst hr
      rw [List.mem_append] at hc
      exact hc.elim (escapeCp_7bit cp h1 c) (i2 rfl c)
    rw [writeStrBody.eq_def] at h
    split at h
    · cases h
      exact ⟨IsStrBody.nil, by simp⟩
    · split at h
      · simp at h
      · simp at h
      · rename_i hx
        exact main _ _ (utf8Next_lt hx) h
      · split at h
        · simp at h
        · exact main _ _ (by simp) h

end Verif
