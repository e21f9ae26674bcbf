import Verif.Props.Variant
import Verif.Proof.SoundClass
import Verif.Spec.Ascii

/-!
# C118: names with escapes

`AllowEscapedNames`.
-/

namespace Verif

open Spec

/-- A name, as it stands in the text, that the search for the next quote would cut short or go past: with a quote in it, or with a backslash at its end. -/
def Spec.Trap (n : Bytes) : Prop := 0x22 ∈ n ∨ n.getLast? = some 0x5C

instance (n : Bytes) : Decidable (Spec.Trap n) := inferInstanceAs (Decidable (_ ∨ _))

theorem trap_last {n : Bytes} (hn : IsStrBody n) (ht : Trap n) (k : Bytes) : (toQuote (n ++ chQuote :: k)).1.getLast? = some chBslash := by
  by_cases hq : chQuote ∈ n
  · exact toQuote_body hn hq k
  · rw [toQuote_plain hq]
    exact ht.resolve_left hq

theorem parseName_trap {t : TCfg} (hck : t.cfg.checked = true) (he : t.escNames = false) {n : Bytes} (hn : IsStrBody n) (ht : Trap n) (k : Bytes) :
    parseName t (chQuote :: (n ++ chQuote :: k)) = .err .invalidString := by
  have := trap_last hn ht k
  unfold parseName
  simp [he, this, hck, headIs, ensure]

theorem parseNameZ_trap {t : TCfg} (he : t.escNames = false) {n : Bytes} (hn : IsStrBody n) (ht : Trap n) {k : Nat} {q : Bytes} (hk : k ≤ q.length) :
    parseNameZ t k (chQuote :: (n ++ chQuote :: q)) = .err .invalidString := by
  have h1 : beforeZ k (n ++ chQuote :: q) = n ++ chQuote :: beforeZ k q := by
    have e : n ++ chQuote :: q = (n ++ [chQuote]) ++ q := by simp
    rw [e, beforeZ_append _ _ hk]; simp
  have hat : atZ chQuote k (chQuote :: (n ++ chQuote :: q)) = true :=
    atZ_cons (by rw [List.length_append, List.length_cons]; omega)
  have hl := trap_last hn ht (beforeZ k q)
  unfold parseNameZ
  simp only [hat, ensure_true, Res.ok_bind, List.tail_cons, he, Bool.false_eq_true, if_false, h1, hl]
  simp [ensure]

theorem plain_of_not_trap {t : TCfg} {tc : Bool} {n pc qc k : Bytes} {d : JVal} (he : t.escNames = false) (ht : ¬ Trap n)
    (hpc : IsWs pc) (hqc : IsWs qc) (hd : d.WFt tc) :
    parseName t (chQuote :: (n ++ chQuote :: (pc ++ chColon :: (qc ++ (d.text ++ k))))) = .ok (n, d.text ++ k) := by
  have hnm := trimEndOfName_ck (cfg := t.cfg) (text_nonsp hd k) hpc hqc
  rw [trimChecked_text d hd] at hnm
  have hq : chQuote ∉ n := fun h => ht (Or.inl h)
  have hl : (n.getLast? != some chBslash) = true := by
    simp only [bne_iff_ne, ne_eq]
    exact fun h => ht (Or.inr h)
  unfold parseName
  simp only [assertWeak_tt, headIs, beq_self_eq_true, Res.ok_bind, deref_cons, he, Bool.false_eq_true, if_false, List.tail_cons,
    toQuote_plain hq, hl, List.isEmpty_cons, Bool.not_false, Bool.and_self, hnm]

/-- **C118, names.**  `parse_name`, which all objects but maps are read with, takes a name whole, as it stands in the text, or rejects it, if it has a quote in it or ends in a
backslash and `AllowEscapedNames` is not set. -/
theorem C118_whole_or_rejected (t : TCfg) (hck : t.cfg.checked = true) (n pc qc k : Bytes) (d : JVal) (hn : IsStrBody n) (hl : n.length < 2 ^ 63)
    (hpc : IsWs pc) (hqc : IsWs qc) (hd : d.WF) :
    parseName t (chQuote :: (n ++ chQuote :: (pc ++ chColon :: (qc ++ (d.text ++ k))))) =
      if t.escNames = false ∧ Trap n then .err .invalidString else .ok (n, d.text ++ k) := by
  cases he : t.escNames with
  | true =>
    rw [if_neg (by simp)]
    exact parseName_ck hn hl (Or.inr he) hpc hqc hd
  | false =>
    by_cases ht : Trap n
    · rw [if_pos ⟨rfl, ht⟩]
      exact parseName_trap hck he hn ht _
    · rw [if_neg (fun h => ht h.2)]
      exact plain_of_not_trap he ht hpc hqc hd

/-- Non-vacuity: `"a\nb": null,`. -/
example : parseName {} asc! "\"a\\nb\": null," = .ok (asc! "a\\nb", asc! "null,") :=
  C118_whole_or_rejected {} rfl asc! "a\\nb" [] [0x20] asc! "," .null
    (.plain (by decide) (by decide) (by decide) (.esc (by unfold isSimpleEsc; decide) (.plain (by decide) (by decide) (by decide) .nil))) (by decide) ws_nil ws_sp trivial

/-- **C118, names in a `std::string`**, `k` bytes of which are behind the end of the range. -/
theorem C118_whole_or_rejected_std_string (t : TCfg) (n pc qc q : Bytes) (d : JVal) (k : Nat) (hk : k ≤ q.length) (hn : IsStrBody n)
    (hl : n.length < 2 ^ 63) (hpc : IsWs pc) (hqc : IsWs qc) (hd : d.WF) :
    parseNameZ t k (chQuote :: (n ++ chQuote :: (pc ++ chColon :: (qc ++ (d.text ++ q))))) =
      if t.escNames = false ∧ Trap n then .err .invalidString else .ok (n, d.text ++ q) := by
  have hc : k ≤ (pc ++ chColon :: (qc ++ (d.text ++ q))).length := by
    simp only [List.length_append, List.length_cons]; omega
  cases he : t.escNames with
  | true =>
    rw [if_neg (by simp)]
    exact parseNameZ_ok hk hn hl (Or.inr he) hpc hqc hd
  | false =>
    by_cases ht : Trap n
    · rw [if_pos ⟨rfl, ht⟩]
      exact parseNameZ_trap he hn ht hc
    · rw [if_neg (fun h => ht h.2)]
      have hnm := trimEndOfNameZ_ok (s := d.text ++ q) (k := k) (by rw [List.length_append]; omega) hpc hqc
      rw [trimChecked_text d hd] at hnm
      have hat : atZ chQuote k (chQuote :: (n ++ chQuote :: (pc ++ chColon :: (qc ++ (d.text ++ q))))) = true :=
        atZ_cons (by rw [List.length_append, List.length_cons]; omega)
      have hlast : (n.getLast? != some chBslash) = true := by
        simp only [bne_iff_ne, ne_eq]
        exact fun h => ht (Or.inr h)
      have e : n ++ chQuote :: (pc ++ chColon :: (qc ++ (d.text ++ q)))
          = (n ++ [chQuote]) ++ (pc ++ chColon :: (qc ++ (d.text ++ q))) := by simp
      have h1 : beforeZ k (n ++ chQuote :: (pc ++ chColon :: (qc ++ (d.text ++ q))))
          = n ++ chQuote :: beforeZ k (pc ++ chColon :: (qc ++ (d.text ++ q))) := by
        rw [e, beforeZ_append _ _ hc]; simp
      have h2 : behindZ k (n ++ chQuote :: (pc ++ chColon :: (qc ++ (d.text ++ q))))
          = behindZ k (pc ++ chColon :: (qc ++ (d.text ++ q))) := by
        rw [e, behindZ_append _ _ hc]
      unfold parseNameZ
      simp only [hat, ensure_true, Res.ok_bind, List.tail_cons]
      rw [if_neg (by simp [he]), h1, h2, toQuote_plain (fun h => ht (Or.inl h))]
      simp only [List.isEmpty_cons, Bool.not_false, hlast, Bool.and_self, ensure_true, Res.ok_bind, List.tail_cons,
        before_behind, hnm]

/-- Non-vacuity: `"a\nb": null,`. -/
example : parseNameZ {} 1 asc! "\"a\\nb\": null," = .ok (asc! "a\\nb", asc! "null,") :=
  C118_whole_or_rejected_std_string {} asc! "a\\nb" [] [0x20] asc! "," .null 1 (by decide)
    (.plain (by decide) (by decide) (by decide) (.esc (by unfold isSimpleEsc; decide) (.plain (by decide) (by decide) (by decide) .nil))) (by decide) ws_nil ws_sp trivial

/-! ## Classes -/

/-- **C118, rejected.**  By default an object that starts with such a name is rejected by every class that has members, whatever follows the name; in a
`string_view` and in a `std::string`. -/
theorem C118_rejected (t : TCfg) (hck : t.cfg.checked = true) (he : t.escNames = false) (Δ : Env) {i : Nat} {m : Member} {ms : List Member} {ex : Bool}
    (hi : Δ i = .obj (m :: ms) ex) (w n k : Bytes) (hw : IsWs w) (hn : IsStrBody n) (ht : Trap n) (f : Nat) :
    fromJson t Δ (f + 1) (.ref i) (0x7B :: (w ++ 0x22 :: (n ++ 0x22 :: k))) = .err .invalidString ∧
    fromJsonZ t Δ (f + 1) (.ref i) (0x7B :: (w ++ 0x22 :: (n ++ 0x22 :: k))) = .err .invalidString := by
  obtain ⟨k', hk'⟩ : ∃ k', (if (0x7B :: (w ++ 0x22 :: (n ++ 0x22 :: k))).getLast? = some 0 then (0x7B :: (w ++ 0x22 :: (n ++ 0x22 :: k))).dropLast
      else 0x7B :: (w ++ 0x22 :: (n ++ 0x22 :: k))) = 0x7B :: (w ++ 0x22 :: (n ++ 0x22 :: k')) := by
    by_cases h0 : (0x7B :: (w ++ 0x22 :: (n ++ 0x22 :: k))).getLast? = some 0
    · rw [if_pos h0]
      have e : 0x7B :: (w ++ 0x22 :: (n ++ 0x22 :: k)) = (0x7B :: (w ++ 0x22 :: n)) ++ 0x22 :: k := by simp
      rw [e] at h0 ⊢
      rcases List.eq_nil_or_concat k with rfl | ⟨k', c, rfl⟩
      · rw [List.getLast?_append] at h0
        simp at h0
      · refine ⟨k', ?_⟩
        rw [List.concat_eq_append, List.dropLast_append_of_ne_nil (by simp), List.dropLast_cons_of_ne_nil (by simp), List.dropLast_concat]
        simp
    · exact ⟨k, if_neg h0⟩
  have hsp : trimChecked (w ++ 0x22 :: (n ++ 0x22 :: k')) = 0x22 :: (n ++ 0x22 :: k') := by
    rw [trimChecked_sp _ _ (IsWs.sp hw)]
    simp [trimChecked, isSpace]
  have hb : trimChecked (0x7B :: (w ++ 0x22 :: (n ++ 0x22 :: k'))) = 0x7B :: (w ++ 0x22 :: (n ++ 0x22 :: k')) := by simp [trimChecked, isSpace]
  have hq : trimChecked (0x22 :: (n ++ 0x22 :: k')) = 0x22 :: (n ++ 0x22 :: k') := by simp [trimChecked, isSpace]
  have hmn : moveNextChecked (0x22 :: (n ++ 0x22 :: k')) = 0x22 :: (n ++ 0x22 :: k') := by
    unfold moveNextChecked
    rw [hq]
    rfl
  have h1 := parseName_trap hck he hn ht k'
  have h2 := parseNameZ_trap (t := t) he hn ht (k := 0) (q := k') (by omega)
  constructor
  · have hfl : ∀ locs, findLoop t (ex || t.exactAll) ((m :: ms).map Member.name) 0 locs (0x22 :: (n ++ 0x22 :: k')) = .err .invalidString := by
      intro locs
      rw [findLoop.eq_def]
      simp only
      rw [if_neg (by decide), h1, Res.err_bind]
    have hfm : findMember t (ex || t.exactAll) ((m :: ms).map Member.name) 0 m.ty.isOpt ((m :: ms).map fun _ => none) (0x22 :: (n ++ 0x22 :: k')) = .err .invalidString := by
      unfold findMember
      have : headIs (· == chRBrace) (0x22 :: (n ++ 0x22 :: k')) = false := by rfl
      have hu : trimUnchecked (0x22 :: (n ++ 0x22 :: k')) = .ok (0x22 :: (n ++ 0x22 :: k')) := by simp [trimUnchecked, isSpace]
      simp only [this, Bool.not_false, Bool.or_true, assertWeak_tt, Res.ok_bind, hu, List.map_cons, List.getElem?_cons_zero, Option.join_some]
      exact hfl _
    have hpo : parseObj t (ex || t.exactAll) (m :: ms) (parseU t Δ f) (parseK t Δ f) (0x7B :: (w ++ 0x22 :: (n ++ 0x22 :: k'))) = .err .invalidString := by
      unfold parseObj
      rw [trim_ck hck, hb]
      simp only [Res.ok_bind, headIs, List.tail_cons, trim_ck hck, hsp]
      rw [classMembers.eq_def]
      simp only [moveNext_ck hck, hmn, Res.ok_bind, headIs]
      rw [hfm, hck]
      rfl
    unfold fromJson
    dsimp only
    rw [hk', parseU.eq_def]
    simp only [List.isEmpty_cons, Bool.not_false, ensure_true, Res.ok_bind, hi, assertWeak_tt, hpo, Res.err_bind]
  · have hfl : ∀ locs, findLoopZ t (ex || t.exactAll) ((m :: ms).map Member.name) 0 0 locs (0x22 :: (n ++ 0x22 :: k')) = .err .invalidString := by
      intro locs
      rw [findLoopZ.eq_def, if_neg (by simp [emptyZ, moreZ, frontZ]), h2, Res.err_bind]
    have hfm : findMemberZ t (ex || t.exactAll) ((m :: ms).map Member.name) 0 m.ty.isOpt 0 ((m :: ms).map fun _ => none) (0x22 :: (n ++ 0x22 :: k')) = .err .invalidString := by
      unfold findMemberZ
      have : atZ chRBrace 0 (0x22 :: (n ++ 0x22 :: k')) = false := by simp [atZ, frontZ]
      simp only [this, Bool.not_false, Bool.or_true, ensure_true, Res.ok_bind, hq, List.map_cons, List.getElem?_cons_zero, Option.join_some]
      exact hfl _
    have hpo : parseObjZ t (ex || t.exactAll) (m :: ms) (parseUZ t Δ f) (parseKZ t Δ f) 0 (0x7B :: (w ++ 0x22 :: (n ++ 0x22 :: k'))) = .err .invalidString := by
      unfold parseObjZ
      rw [hb]
      have ha : atZ chLBrace 0 (0x7B :: (w ++ 0x22 :: (n ++ 0x22 :: k'))) = true := by simp [atZ, frontZ, moreZ]
      simp only [Res.ok_bind, ha, ensure_true, List.tail_cons, hsp]
      rw [classMembersZ.eq_def]
      have hg : (!emptyZ 0 (0x22 :: (n ++ 0x22 :: k')) && (frontZ (0x22 :: (n ++ 0x22 :: k')) == chQuote || frontZ (0x22 :: (n ++ 0x22 :: k')) == chRBrace)) = true := by
        simp [emptyZ, frontZ, moreZ]
      simp only [hmn, hg, ensure_true, Res.ok_bind]
      rw [hfm]
      rfl
    unfold fromJsonZ
    dsimp only
    rw [hk', parseUZ.eq_def]
    simp [hi, hpo, moreZ]

/-- Non-vacuity: `{"a\"b":1}`. -/
example : fromJson {} exEnv 3 (.ref 0) asc! "{\"a\\\"b\":1}" = .err .invalidString ∧ fromJsonZ {} exEnv 3 (.ref 0) asc! "{\"a\\\"b\":1}" = .err .invalidString :=
  C118_rejected {} rfl rfl exEnv rfl [] asc! "a\\\"b" asc! ":1}" ws_nil
    (.plain (by decide) (by decide) (by decide) (.esc (by unfold isSimpleEsc; decide) (.plain (by decide) (by decide) (by decide) .nil))) (by decide) 2

/-- A class whose only member is mapped as `a"b`. -/
def exQuoteName : Env := fun _ => .obj [⟨asc! "a\"b", .int exI32 false⟩] false

/-- C118 is false of the code: escapes in the names of classes are not decoded, also with `AllowEscapedNames`, so that `{"\u0061":1}` has no member `a` (the keys of maps are); a member
that is mapped as `a"b` is written without escapes, which is not JSON, and is not found in JSON text; and the name `a\` is rejected by default. -/
theorem C118_false :
    fromJson { escNames := true } exEnv 9 (.ref 0) asc! "{\"\\u0061\":1}" = .err .missingMember ∧
    fromJson {} exEnv 9 (.map (.int exI32 false)) asc! "{\"\\u0061\":1}" = .ok (.map [(asc! "a", .int 1)]) ∧
    toJson {} exQuoteName (.ref 0) (.cls [.int 1]) = .ok asc! "{\"a\"b\":1}" ∧
    fromJson { escNames := true } exQuoteName 9 (.ref 0) asc! "{\"a\\\"b\":1}" = .err .missingMember ∧
    fromJson {} exEnv 9 (.ref 0) asc! "{\"\\\\\":1,\"a\":1}" = .err .invalidString ∧
    fromJson { escNames := true } exEnv 9 (.ref 0) asc! "{\"\\\\\":1,\"a\":1}" = .ok (.cls [.int 1, .none, .none]) := by
  decide +kernel

end Verif
