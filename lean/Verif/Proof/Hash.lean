import Verif.Model.Hash

/-!
# Lemmas about the name hash
-/

namespace Verif

theorem fnvBytes_eq_foldl (h : UInt32) (bs : Bytes) : fnvBytes h bs = bs.foldl fnvStep h := by
  induction bs generalizing h with
  | nil => rfl
  | cons c cs ih => simp [fnvBytes, ih]

theorem foldl_take_drop (n : Nat) (h : UInt32) (bs : Bytes) :
    (bs.drop n).foldl fnvStep (fnvN n h bs) = bs.foldl fnvStep h := by
  unfold fnvN
  rw [← List.foldl_append, List.take_append_drop]

theorem fnvBlocks_foldl (h : UInt32) (bs : Bytes) :
    (fnvBlocks h bs).2.foldl fnvStep (fnvBlocks h bs).1 = bs.foldl fnvStep h := by
  fun_induction fnvBlocks h bs with
  | case1 h bs _ ih => rw [ih, foldl_take_drop]
  | case2 h bs _ => rfl

theorem fnv1a_long (bs : Bytes) : fnv1a true bs = fnv1a false bs := by
  unfold fnv1a
  simp only [if_true, Bool.false_eq_true, if_false]
  rw [fnvBytes_eq_foldl 0x811c9dc5, ← fnvBlocks_foldl]
  split
  · rw [fnvBytes_eq_foldl, foldl_take_drop]
  · rw [fnvBytes_eq_foldl]

theorem nameHash_long (bs : Bytes) (l : Bool) : nameHash l bs = nameHash false bs := by
  unfold nameHash
  cases l
  · rfl
  · rw [fnv1a_long]

/-- The number a short name is packed into, most significant byte first. -/
def packNat (bs : Bytes) : Nat := bs.foldl (fun a c => 256 * a + c.toNat) 0

theorem packNat_snoc (bs : Bytes) (c : UInt8) : packNat (bs ++ [c]) = 256 * packNat bs + c.toNat := by
  simp [packNat]

theorem packName_toNat (bs : Bytes) (r : UInt32) (a : Nat) (hr : r.toNat = a) (h : a * 256 ^ bs.length + 256 ^ bs.length ≤ 2 ^ 32) :
    (packName r bs).toNat = bs.foldl (fun a c => 256 * a + c.toNat) a := by
  induction bs generalizing r a with
  | nil => simpa [packName] using hr
  | cons c cs ih =>
    have hc := c.toNat_lt
    have hp : 1 ≤ 256 ^ cs.length := Nat.one_le_pow _ _ (by decide)
    simp only [List.length_cons, Nat.pow_succ] at h
    have h2 : (256 * a + c.toNat) * 256 ^ cs.length + 256 ^ cs.length ≤ 2 ^ 32 := by
      have : (256 * a + c.toNat + 1) * 256 ^ cs.length ≤ (256 * a + 256) * 256 ^ cs.length :=
        Nat.mul_le_mul_right _ (by omega)
      have e1 : (256 * a + 256) * 256 ^ cs.length = a * (256 ^ cs.length * 256) + 256 ^ cs.length * 256 := by
        rw [Nat.add_mul]
        congr 1
        · rw [Nat.mul_comm 256 a, Nat.mul_assoc, Nat.mul_comm 256]
        · rw [Nat.mul_comm]
      have e2 : (256 * a + c.toNat + 1) * 256 ^ cs.length
          = (256 * a + c.toNat) * 256 ^ cs.length + 256 ^ cs.length := by rw [Nat.add_mul _ 1, Nat.one_mul]
      omega
    have ha : 256 * a + c.toNat < 2 ^ 32 := by
      have : (256 * a + c.toNat) * 1 ≤ (256 * a + c.toNat) * 256 ^ cs.length := Nat.mul_le_mul_left _ hp
      omega
    simp only [packName, List.foldl_cons]
    refine ih _ _ ?_ h2
    rw [UInt32.toNat_or, UInt32.toNat_shiftLeft, hr]
    simp only [UInt8.toNat_toUInt32]
    rw [show (UInt32.toNat 8 % 32) = 8 by decide, Nat.shiftLeft_eq, Nat.mod_eq_of_lt (by omega),
      Nat.mul_comm a, show (2:Nat) ^ 8 * a = 2 ^ 8 * a by rfl, ← Nat.two_pow_add_eq_or_of_lt (by omega)]

/-- Little-endian packing of the reversed name. -/
def packRev : Bytes → Nat
  | [] => 0
  | c :: cs => 256 * packRev cs + c.toNat

theorem packNat_reverse (bs : Bytes) : packNat bs.reverse = packRev bs := by
  induction bs with
  | nil => rfl
  | cons c cs ih => rw [List.reverse_cons, packNat_snoc, ih]; rfl

theorem packRev_inj {a b : Bytes} (ha : ∀ c ∈ a, c ≠ 0) (hb : ∀ c ∈ b, c ≠ 0) (h : packRev a = packRev b) :
    a = b := by
  have nz : ∀ c : UInt8, c ≠ 0 → c.toNat ≠ 0 := fun c hc h0 => hc (UInt8.toNat_inj.1 (by simpa using h0))
  induction a generalizing b with
  | nil =>
    cases b with
    | nil => rfl
    | cons d ds =>
      have := nz d (hb d (by simp))
      simp only [packRev] at h
      omega
  | cons c cs ih =>
    have hc := nz c (ha c (by simp))
    have := c.toNat_lt
    cases b with
    | nil => simp only [packRev] at h; omega
    | cons d ds =>
      have := d.toNat_lt
      simp only [packRev] at h
      have h1 : c.toNat = d.toNat := by omega
      have h2 : packRev cs = packRev ds := by omega
      rw [UInt8.toNat_inj.1 h1, ih (fun x hx => ha x (by simp [hx])) (fun x hx => hb x (by simp [hx])) h2]

theorem nameHash_short_inj {a b : Bytes} (ha : a.length ≤ 4) (hb : b.length ≤ 4) (za : ∀ c ∈ a, c ≠ 0)
    (zb : ∀ c ∈ b, c ≠ 0) (l l' : Bool) (h : nameHash l a = nameHash l' b) : a = b := by
  unfold nameHash at h
  rw [if_pos ha, if_pos hb] at h
  have hinv : ∀ x : UInt32, x * 0xCC9E2d51 * 0xdee13bb1 = x := by
    intro x
    rw [UInt32.mul_assoc, show (0xCC9E2d51 : UInt32) * 0xdee13bb1 = 1 by decide, UInt32.mul_one]
  have h1 : packName 0 a = packName 0 b := by
    rw [← hinv (packName 0 a), h, hinv]
  have key : ∀ bs : Bytes, bs.length ≤ 4 → (packName 0 bs).toNat = packNat bs := by
    intro bs hl
    refine packName_toNat bs 0 0 rfl ?_
    rw [Nat.zero_mul, Nat.zero_add, show (2 : Nat) ^ 32 = 256 ^ 4 by decide]
    exact Nat.pow_le_pow_right (by decide) hl
  have h2 : packNat a = packNat b := by rw [← key a ha, ← key b hb, h1]
  have h3 : packRev a.reverse = packRev b.reverse := by
    rw [← packNat_reverse, ← packNat_reverse, List.reverse_reverse, List.reverse_reverse, h2]
  have := packRev_inj (fun c hc => za c (by simpa using hc)) (fun c hc => zb c (by simpa using hc)) h3
  simpa using this

end Verif
