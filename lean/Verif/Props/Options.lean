import Verif.Proof.Options

/-!
# C40: options

The theorems are about every list of option types of which fewer than 32 bits are used, so about the lists of the library
(`lists_fit`) and any that may be added.
-/

namespace Verif

/-- The lists of the library meet the hypotheses of the theorems below. -/
theorem lists_fit : ∀ L ∈ [parseOpts, serializeOpts, numberOpts, boolOpts, stringOpts, stringRawOpts, customOpts],
    (L.map Opt.width).sum < 32 ∧ ∀ o ∈ L, o.dflt < 2 ^ o.width := by decide

theorem optTotal_sum : (L : List Opt) → optTotal L = (L.map Opt.width).sum
  | [] => rfl
  | o :: os => by simp [optTotal, optTotal_sum os]

theorem length_of_get {L : List Opt} {i : Nat} {o : Opt} (h : L[i]? = some o) : i < L.length := by
  rcases Nat.lt_or_ge i L.length with h' | h'
  · exact h'
  · rw [List.getElem?_eq_none h'] at h; cases h

/-- **C40, the option set.**  `set_bits` makes the option read back as the value set. -/
theorem C40_reads_back (L : List Opt) (hL : (L.map Opt.width).sum < 32) (w : BitVec 32) (i v : Nat) (o : Opt)
    (hi : L[i]? = some o) (hv : v < 2 ^ o.width) : getBits L (setBits L w i v) i = v :=
  getBits_setBits (by rwa [optTotal_sum]) w i v (by simpa [optWidth, hi] using hv)

/-- **C40, the others.**  `set_bits` leaves every other option as it is. -/
theorem C40_others_unchanged (L : List Opt) (hL : (L.map Opt.width).sum < 32) (w : BitVec 32) (i j v : Nat) (o o' : Opt)
    (hi : L[i]? = some o) (hj : L[j]? = some o') (hne : i ≠ j) : getBits L (setBits L w i v) j = getBits L w j :=
  getBits_setBits_ne (by rwa [optTotal_sum]) w i j v (length_of_get hi) (length_of_get hj) hne

/-- **C40, several options.**  After `set_bits` with any number of options (`parse_flags`, `output_flags` and the options of
members), an option reads back as the last value given for it, or as before if none was given. -/
theorem C40_last_one_counts (L : List Opt) (hL : (L.map Opt.width).sum < 32) (ps : List (Nat × Nat))
    (hps : ∀ p ∈ ps, ∃ o, L[p.1]? = some o ∧ p.2 < 2 ^ o.width) (w : BitVec 32) (j : Nat) (o : Opt) (hj : L[j]? = some o) :
    getBits L (setBitsAll L w ps) j = (((ps.filter (·.1 == j)).getLast?).map Prod.snd).getD (getBits L w j) := by
  induction ps generalizing w with
  | nil => rfl
  | cons p ps ih =>
    obtain ⟨i, v⟩ := p
    obtain ⟨o', h1, h2⟩ := hps (i, v) (by simp)
    rw [setBitsAll, ih (fun p hp => hps p (by simp [hp])), List.filter_cons]
    by_cases hij : i = j
    · subst hij
      rw [C40_reads_back L hL w i v o' h1 h2]
      simp only [beq_self_eq_true, if_true, List.getLast?_cons]
      cases (ps.filter (·.1 == i)).getLast? <;> rfl
    · rw [C40_others_unchanged L hL w i j v o' o h1 hj hij]
      simp [hij]

/-- **C40, defaults.**  In the word that everything starts from every option has its default. -/
theorem C40_defaults (L : List Opt) (hL : (L.map Opt.width).sum < 32) (hd : ∀ o ∈ L, o.dflt < 2 ^ o.width) (j : Nat) (o : Opt)
    (hj : L[j]? = some o) : getBits L (defaultFlag L) j = o.dflt :=
  getBits_defaultFlag (by rwa [optTotal_sum]) hd hj

/-- **C40, partial: or-ing.**  `parse_options` (behind `parse_flags`), `serialize_options`, `number_opt`, `string_opt` and so on or the options onto the
defaults.  An option whose default has the number 0, given once, reads back as the value given. -/
theorem C40_or_partial (L : List Opt) (hL : (L.map Opt.width).sum < 32) (hd : ∀ o ∈ L, o.dflt < 2 ^ o.width)
    (ps : List (Nat × Nat)) (hps : ∀ p ∈ ps, ∃ o, L[p.1]? = some o ∧ p.2 < 2 ^ o.width) (hnd : (ps.map Prod.fst).Nodup)
    (j v : Nat) (o : Opt) (hj : L[j]? = some o) (h0 : o.dflt = 0) (hv : (j, v) ∈ ps) :
    getBits L (optionsOr L ps) j = v := by
  have hL' : optTotal L < 32 := by rwa [optTotal_sum]
  unfold optionsOr
  rw [getBits_or hL', getBits_defaultFlag hL' hd hj, h0, Nat.zero_or, getBits_orBitsFor hL' j (length_of_get hj) ps]
  · have none : ∀ ps : List (Nat × Nat), j ∉ ps.map Prod.fst → orVals j ps = 0 := by
      intro ps h
      induction ps with
      | nil => rfl
      | cons p ps ih =>
        obtain ⟨i, x⟩ := p
        simp only [List.map_cons, List.mem_cons, not_or] at h
        rw [orVals, if_neg (Ne.symm h.1), ih h.2]
        rfl
    clear hps
    induction ps with
    | nil => cases hv
    | cons p ps ih =>
      obtain ⟨i, x⟩ := p
      simp only [List.map_cons, List.nodup_cons] at hnd
      rcases List.mem_cons.1 hv with h | h
      · simp only [Prod.mk.injEq] at h
        obtain ⟨rfl, rfl⟩ := h
        rw [orVals, if_pos rfl, none ps hnd.1, Nat.or_zero]
      · have : i ≠ j := by
          rintro rfl
          exact hnd.1 (List.mem_map.2 ⟨_, h, rfl⟩)
        rw [orVals, if_neg this, Nat.zero_or, ih hnd.2 h]
  · intro p hp
    obtain ⟨o', h1, h2⟩ := hps p hp
    exact ⟨length_of_get h1, by simpa [optWidth, h1] using h2⟩

/-- **C40, or-ing, the others.**  An option that is not given has its default. -/
theorem C40_or_others (L : List Opt) (hL : (L.map Opt.width).sum < 32) (hd : ∀ o ∈ L, o.dflt < 2 ^ o.width)
    (ps : List (Nat × Nat)) (hps : ∀ p ∈ ps, ∃ o, L[p.1]? = some o ∧ p.2 < 2 ^ o.width)
    (j : Nat) (o : Opt) (hj : L[j]? = some o) (hn : ∀ p ∈ ps, p.1 ≠ j) :
    getBits L (optionsOr L ps) j = o.dflt := by
  have hL' : optTotal L < 32 := by rwa [optTotal_sum]
  unfold optionsOr
  rw [getBits_or hL', getBits_defaultFlag hL' hd hj, getBits_orBitsFor hL' j (length_of_get hj) ps]
  · have : orVals j ps = 0 := by
      clear hps
      induction ps with
      | nil => rfl
      | cons p ps ih =>
        obtain ⟨i, x⟩ := p
        rw [orVals, if_neg (hn (i, x) (by simp)), ih fun p hp => hn p (by simp [hp])]
        rfl
    rw [this, Nat.or_zero]
  · intro p hp
    obtain ⟨o', h1, h2⟩ := hps p hp
    exact ⟨length_of_get h1, by simpa [optWidth, h1] using h2⟩

/-- Every option of the parser, of numbers, of booleans and of custom types has the default 0, so for these lists `C40_or_partial` leaves nothing out. -/
theorem C40_or_lists : ∀ L ∈ [parseOpts, numberOpts, boolOpts, customOpts], ∀ o ∈ L, o.dflt = 0 := by decide

/-- Where or-ing goes wrong: `string_opt( EightBitModes::DisallowHigh )` reads back as AllowFull (1);
`serialize_options( IndentationType::Tab )` as Space2 (2), `serialize_options( IndentationType::Space1 )` as Space3 (3), and
`serialize_options( RestrictedStringOutput::OnlyAllow7bitsStrings )` as 3, which is no value of that option. -/
theorem C40_or_false :
    getBits stringOpts (optionsOr stringOpts [(0, 0)]) 0 = 1 ∧
    getBits serializeOpts (optionsOr serializeOpts [(1, 0)]) 1 = 2 ∧
    getBits serializeOpts (optionsOr serializeOpts [(1, 1)]) 1 = 3 ∧
    getBits serializeOpts (optionsOr serializeOpts [(2, 2)]) 2 = 3 := by decide

/-- `set_bits_in` clears the bits of the first option instead of those of its own: setting NewLineDelimiter (back to `n`, 0) leaves it at `rn` and
turns Pretty into Minified; setting FPOutputFormat of a number to Decimal (2) from Scientific (1) gives 3, and loses
LiteralAsStringOpt. -/
theorem C40_set_bits_in_false :
    (∃ w, getBits serializeOpts w 3 = 1 ∧ getBits serializeOpts (setBitsIn serializeOpts w 3 0) 3 = 1 ∧
      getBits serializeOpts w 0 = 1 ∧ getBits serializeOpts (setBitsIn serializeOpts w 3 0) 0 = 0) ∧
    (∃ w, getBits numberOpts w 3 = 1 ∧ getBits numberOpts (setBitsIn numberOpts w 3 2) 3 = 3 ∧
      getBits numberOpts w 0 = 2 ∧ getBits numberOpts (setBitsIn numberOpts w 3 2) 0 = 0) :=
  ⟨⟨setBitsAll serializeOpts (defaultFlag serializeOpts) [(3, 1), (0, 1)], by decide⟩,
   ⟨setBitsAll numberOpts (defaultFlag numberOpts) [(3, 1), (0, 2)], by decide⟩⟩

/-! ## Non-vacuity -/

example : getBits serializeOpts (setBits serializeOpts 0xFFFFFFFF#32 1 4) 1 = 4 :=
  C40_reads_back serializeOpts (by decide) _ 1 4 ⟨3, 2⟩ rfl (by decide)

example : getBits serializeOpts (setBits serializeOpts 0xFFFFFFFF#32 1 4) 2 = getBits serializeOpts 0xFFFFFFFF#32 2 :=
  C40_others_unchanged serializeOpts (by decide) _ 1 2 4 ⟨3, 2⟩ ⟨2, 1⟩ rfl rfl (by decide)

/-- `output_flags<Tab, Pretty, Space8>`. -/
example : getBits serializeOpts (setBitsAll serializeOpts (defaultFlag serializeOpts) [(1, 0), (0, 1), (1, 6)]) 1 = 6 :=
  C40_last_one_counts serializeOpts (by decide) [(1, 0), (0, 1), (1, 6)]
    (by simp only [List.mem_cons, List.not_mem_nil, or_false]
        rintro p (rfl | rfl | rfl)
        · exact ⟨⟨3, 2⟩, rfl, by decide⟩
        · exact ⟨⟨1, 0⟩, rfl, by decide⟩
        · exact ⟨⟨3, 2⟩, rfl, by decide⟩) _ 1 ⟨3, 2⟩ rfl

/-- `parse_flags<PolicyCommentTypes::hash, CheckedParseMode::no>`. -/
example : getBits parseOpts (optionsOr parseOpts [(2, 2), (3, 1)]) 2 = 2 ∧ getBits parseOpts (optionsOr parseOpts [(2, 2), (3, 1)]) 5 = 0 := by
  have h : ∀ p ∈ [(2, 2), (3, 1)], ∃ o, parseOpts[p.1]? = some o ∧ p.2 < 2 ^ o.width := by
    simp only [List.mem_cons, List.not_mem_nil, or_false]
    rintro p (rfl | rfl)
    · exact ⟨⟨2, 0⟩, rfl, by decide⟩
    · exact ⟨⟨1, 0⟩, rfl, by decide⟩
  exact ⟨C40_or_partial parseOpts (by decide) (by decide) _ h (by decide) 2 2 ⟨2, 0⟩ rfl rfl (by simp),
    C40_or_others parseOpts (by decide) (by decide) _ h 5 ⟨1, 0⟩ rfl (by decide)⟩

end Verif
