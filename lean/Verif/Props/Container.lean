import Verif.Proof.Container
import Verif.Props.Write
import Verif.Props.Exact
import Verif.Spec.Ascii

/-!
# Properties C102 and C103: arrays of a fixed size, and maps
-/

namespace Verif

open Spec

/-! ## Arrays of a fixed size -/

theorem fromJsonBy_text {t : TCfg} (hck : t.cfg.checked = true) {tc : Bool} {d : JVal} (hd : d.WFt tc) (k : Bytes) {p : Bytes → Res (Val × Bytes)} {v : Val} {r : Bytes}
    (hp : p (d.text ++ dropNul k) = .ok (v, r)) :
    fromJsonBy t p (d.text ++ k) = if t.verifyEnd = true ∧ trimChecked r ≠ [] then .err .invalidEndOfValue else .ok v := by
  unfold fromJsonBy
  have hem : (d.text ++ k).isEmpty = false := text_ne_empty hd k
  have hn : (if (d.text ++ k).getLast? = some 0 then (d.text ++ k).dropLast else d.text ++ k) = d.text ++ dropNul k := dropNul_append hd k
  simp only [hem, Bool.not_false, ensure_true, Res.ok_bind, hn, hp, endOfDoc, trim_ck hck]
  cases t.verifyEnd with
  | false => simp
  | true => cases trimChecked r <;> simp [ensure]

theorem isSp_libSpace {s : Bytes} (h : IsSp s) : LibSpace s := by
  refine (trimChecked_nil_iff s).1 ?_
  induction s with
  | nil => rfl
  | cons c cs ih =>
    rw [trimChecked, if_pos (h c (by simp))]
    exact ih fun x hx => h x (by simp [hx])

/-- **C102**, partial: an array that has no more elements than the `std::array` is read as its elements followed by `T{ }` for those that are
missing, and the parser stands behind the closing bracket; for every element type, any whitespace and any text behind the array.
Missing: arrays with more elements, see `C102_false_too_many`. -/
theorem C102_reads_partial (t : TCfg) (hck : t.cfg.checked = true) (Δ : Env) (henv : EnvOk Δ) (ty : Ty) (dflt : Val) (n : Nat) (w : Bytes)
    (es : JElems) (vs : List Val) (hr : Reads Δ (Usable t) t.exactAll (.arr ty) (.arr w es) (.arr vs))
    (hw : (JVal.arr w es).WF) (hf : (JVal.arr w es).Fits) (hn : vs.length ≤ n) (k : Bytes) (hk : t.verifyEnd = true → LibSpace (dropNul k)) :
    ∃ f0, ∀ f, f0 ≤ f →
      fromJsonFix t Δ f ty dflt n ((JVal.arr w es).text ++ k) = .ok (.arr (vs ++ List.replicate (n - vs.length) dflt)) ∧
      ∃ r, parseFixArr t.cfg (parseU t Δ f ty) dflt n ((JVal.arr w es).text ++ k) = .ok (.arr (vs ++ List.replicate (n - vs.length) dflt), r) ∧
        ∃ s, LibSpace s ∧ k = s ++ r := by
  have hd := dok_of hw hf
  cases hr with
  | arr he hes =>
    obtain ⟨f0, hf0⟩ := elems_semM (Or.inl hck) henv usable_nameOk rfl hes hd.elems (Or.inl hck)
    have hfill : fill n dflt vs = vs ++ List.replicate (n - vs.length) dflt := by rw [fill, List.take_of_length_le hn]
    refine ⟨f0, fun f hfu => ⟨?_, ?_⟩⟩
    · obtain ⟨r, h1, h2, -⟩ := parseFixArr_sem (cfg := t.cfg) dflt n hd.wf he (hf0 f hfu) (dropNul k)
      rw [fromJsonFix, fromJsonBy_text hck hd.wf k h1, hfill, if_neg]
      rintro ⟨h3, h4⟩
      rw [trimChecked_trimEq (h2 hn)] at h4
      exact h4 ((trimChecked_nil_iff _).2 (hk h3))
    · obtain ⟨r, h1, h2, -⟩ := parseFixArr_sem (cfg := t.cfg) dflt n hd.wf he (hf0 f hfu) k
      rw [hfill] at h1
      obtain ⟨s, hs1, hs2⟩ := h2 hn
      exact ⟨r, h1, s, isSp_libSpace hs1, hs2⟩

/-- The array `[7 ,{…}]`-like sample: `[7,7 ]`. -/
def exFixEs : JElems := .cons [] (.num [0x37]) [] (.cons [] (.num [0x37]) [0x20] .nil)

theorem exFix_reads {Δ : Env} {nm : List Bytes → Bytes → Prop} {ea : Bool} :
    Reads Δ nm ea (.arr (.int exI32 false)) (.arr [] exFixEs) (.arr [.int 7, .int 7]) :=
  .arr (by simp [exFixEs]) (.cons (.int (by decide) (by decide) num7_numeral) (.cons (.int (by decide) (by decide) num7_numeral) .nil))

theorem exFix_wf : (JVal.arr [] exFixEs).WF :=
  ⟨Or.inl ws_nil, ws_nil, num1_wf (by unfold IsDig; decide) (by decide), ws_nil, ws_nil, num1_wf (by unfold IsDig; decide) (by decide), ws_sp, trivial⟩

/-- Non-vacuity: `[7,7 ]` as a `std::array<int, 3>`, with a newline behind it. -/
example := C102_reads_partial { verifyEnd := true } rfl exEnv exEnv_ok (.int exI32 false) (.int 0) 3 [] exFixEs _ exFix_reads exFix_wf ⟨by decide, by decide⟩
  (by decide) [0x0A] (fun _ => by unfold LibSpace; decide)

/-- **C102 is false of the code** for every array with more elements than the `std::array`: the parser stops in front of the first element that
does not fit instead of behind the array.  As a document the array is accepted, unless the end is verified; as an element of another array it
is rejected; found before its turn as a member of a class it is accepted. -/
theorem C102_false_too_many (t : TCfg) (hck : t.cfg.checked = true) (Δ : Env) (henv : EnvOk Δ) (ty : Ty) (dflt : Val) (n : Nat) (w : Bytes)
    (es : JElems) (vs : List Val) (hr : Reads Δ (Usable t) t.exactAll (.arr ty) (.arr w es) (.arr vs))
    (hw : (JVal.arr w es).WF) (hf : (JVal.arr w es).Fits) (hn : n < vs.length) (k : Bytes) :
    ∃ f0, ∀ f, f0 ≤ f →
      fromJsonFix t Δ f ty dflt n ((JVal.arr w es).text ++ k) = (if t.verifyEnd then .err .invalidEndOfValue else .ok (.arr (vs.take n))) ∧
      arrLoop t.cfg (parseFixU t Δ f dflt n (.arr ty)) ((JVal.arr w es).text ++ k) = .err .unexpectedEndOfData ∧
      ∀ r a, r.text = (JVal.arr w es).text → parseFixK t Δ f dflt n (.arr ty) r a = .ok (.arr (vs.take n)) := by
  have hd := dok_of hw hf
  cases hr with
  | arr he hes =>
    obtain ⟨f0, hf0⟩ := elems_semM (Or.inl hck) henv usable_nameOk rfl hes hd.elems (Or.inl hck)
    have hfill : fill n dflt vs = vs.take n := by rw [fill, show n - vs.length = 0 by omega]; simp
    have hsp : ∀ {f : Nat} {k : Bytes}, f0 ≤ f → ∃ c cs, parseFixArr t.cfg (parseU t Δ f ty) dflt n ((JVal.arr w es).text ++ k) = .ok (.arr (vs.take n), c :: cs) ∧
        isSpace c = false ∧ isTokenAfterValue c = false := by
      intro f k hfu
      obtain ⟨r, h1, -, h2⟩ := parseFixArr_sem (cfg := t.cfg) dflt n hd.wf he (hf0 f hfu) k
      obtain ⟨c, cs, h3, h4⟩ := arrRest_drop_head (w := w) (k := k) hd.elems.wf (hf0 f hfu) hn
      rw [hfill, h2 hn, h3] at h1
      exact ⟨c, cs, h1, h4⟩
    refine ⟨f0, fun f hfu => ⟨?_, ?_, fun r a hr => ?_⟩⟩
    · obtain ⟨c, cs, h1, h2, -⟩ := hsp (k := dropNul k) hfu
      rw [fromJsonFix, fromJsonBy_text hck hd.wf k h1, trimChecked_cons_of_not _ h2]
      cases t.verifyEnd <;> simp
    · obtain ⟨c, cs, h1, h2, h3⟩ := hsp (k := k) hfu
      have hem : ((JVal.arr w es).text ++ k).isEmpty = false := text_ne_empty hd.wf k
      have hh : headIs (fun c => c == chComma || c == chRBrack) (c :: cs) = false := by
        simp only [isTokenAfterValue, Bool.or_eq_false_iff] at h3
        simp [headIs, h3.1.1, h3.2]
      unfold arrLoop
      simp only [hem, Bool.not_false, assertWeak_tt, Res.ok_bind, parseFixU, h1, trim_of (trimChecked_cons_of_not cs h2) (by simp), hh]
      simp [assertWeak, hck, ensure]
    · obtain ⟨c, cs, h1, -⟩ := hsp (k := []) hfu
      rw [List.append_nil] at h1
      simp only [parseFixK, hr, h1, Res.ok_bind]

/-- Non-vacuity: `[7,7 ]` as a `std::array<int, 1>`. -/
example := C102_false_too_many {} rfl exEnv exEnv_ok (.int exI32 false) (.int 0) 1 [] exFixEs _ exFix_reads exFix_wf ⟨by decide, by decide⟩ (by decide) []

/-- `struct E { int x; }`, `struct S { std::array<E, 1> a; }` -/
def exFixEnv : Env := fun _ => .obj [⟨asc! "x", .int exI32 false⟩] false

def exFixMs : List Member := [⟨asc! "a", .arr (.ref 0)⟩]

/-- **C102 is false of the code**: a further object in the array is taken for the rest of the class, so that the elements behind it are lost
without an error: `[{"a":[{"x":1},{"x":2}]},{"a":[{"x":3}]}]` as a `std::vector<S>` has one element. -/
theorem C102_false_loses_elements :
    fromJsonBy {} (parseArr {} (parseFixObj {} exFixEnv 10 (.cls [.int 0]) 1 exFixMs)) asc! "[{\"a\":[{\"x\":1},{\"x\":2}]},{\"a\":[{\"x\":3}]}]"
      = .ok (.arr [.cls [.arr [.cls [.int 1]]]]) ∧
    fromJsonBy {} (parseArr {} (parseFixObj {} exFixEnv 10 (.cls [.int 0]) 1 exFixMs)) asc! "[{\"a\":[{\"x\":1}]},{\"a\":[{\"x\":3}]}]"
      = .ok (.arr [.cls [.arr [.cls [.int 1]]], .cls [.arr [.cls [.int 3]]]]) := by
  decide +kernel

/-- **C102 is false of the code**: whether a class with an array that is too long is accepted depends on the order of its members. -/
theorem C102_false_by_order :
    fromJsonBy {} (parseFixObj {} exFixEnv 10 (.int 0) 1 [⟨asc! "b", .int exI32 false⟩, ⟨asc! "a", .arr (.int exI32 false)⟩]) asc! "{\"a\":[1,2],\"b\":5}"
      = .ok (.cls [.int 5, .arr [.int 1]]) ∧
    fromJsonBy {} (parseFixObj {} exFixEnv 10 (.int 0) 1 [⟨asc! "a", .arr (.int exI32 false)⟩, ⟨asc! "b", .int exI32 false⟩]) asc! "{\"a\":[1,2],\"b\":5}"
      = .err .missingMemberNameOrEndOfClass := by
  decide +kernel

/-- **C102**, round trip: what is written for an array of `n` elements is read back as the same array. -/
theorem C102_round_trip (w : WCfg) (t : TCfg) (hck : t.cfg.checked = true) (Δ : Env) (hΔ : Writable Δ)
    (hp : PlainNames t Δ) (hx : w.tc = true → NoExactOrdered t Δ) (ty : Ty) (dflt : Val) (vs : List Val)
    (hv : HasTy Δ ValidUtf8 (Seven w.only7bit) (.arr ty) (.arr vs)) (hdep : (Val.arr vs).depth < 2 ^ 32) :
    ∃ out, toJson w Δ (.arr ty) (.arr vs) = .ok out ∧
      (out.length < 2 ^ 63 → ∃ f0, ∀ f, f0 ≤ f → fromJsonFix t Δ f ty dflt vs.length out = .ok (.arr vs)) := by
  obtain ⟨d, hd⟩ := layVal_ok (w := w) 0 (.arr ty) (.arr vs) hv
  refine ⟨d.text, ?_, fun hl => ?_⟩
  · rw [toJson, writeVal_text hΔ 0 _ _ hv, hd]
    rfl
  · have hr := layVal_reads hΔ (readable_of hp hx) 0 _ _ hv hd
    have hdd := layVal_depth 0 _ _ hd
    have hok : DOk w.tc d := ⟨layVal_wf hΔ 0 _ _ hv hd, by omega, hl⟩
    cases hr with
    | arr he hes =>
      obtain ⟨f0, hf0⟩ := elems_semM (Or.inl hck) hΔ.nodup usable_nameOk rfl hes hok.elems (Or.inl hck)
      refine ⟨f0, fun f hfu => ?_⟩
      obtain ⟨r, h1, h2, -⟩ := parseFixArr_sem (cfg := t.cfg) dflt vs.length hok.wf he (hf0 f hfu) []
      have h3 := fromJsonBy_text (t := t) hck hok.wf [] (p := parseFixArr t.cfg (parseU t Δ f ty) dflt vs.length) h1
      rw [List.append_nil] at h3
      have h4 : trimChecked r = [] := by rw [trimChecked_trimEq (h2 (le_refl _))]; rfl
      rw [fromJsonFix, h3, if_neg (by simp [h4])]
      simp [fill]

/-- Non-vacuity: an array of two classes, pretty printed with trailing commas. -/
example : ∃ out, toJson { pretty := true, tc := true } exEnv (.arr (.ref 0)) (.arr [exVal, exVal]) = .ok out ∧
    (out.length < 2 ^ 63 → ∃ f0, ∀ f, f0 ≤ f → fromJsonFix {} exEnv f (.ref 0) .none 2 out = .ok (.arr [exVal, exVal])) :=
  C102_round_trip _ {} rfl exEnv exEnv_writable (exEnv_plain _) (fun _ => by intro i ms ex h; cases h) (.ref 0) .none [exVal, exVal]
    (by simp only [HasTy, HasElems]; exact ⟨exVal_hasTy, exVal_hasTy, trivial⟩) (by decide)

/-! ## Maps -/

/-- The order of the keys is the lexicographic order of their bytes. -/
theorem keyLt_iff : ∀ a b : Bytes, keyLt a b = true ↔ a < b
  | [], [] => by simp [keyLt]
  | [], _ :: _ => by simp [keyLt]
  | _ :: _, [] => by simp [keyLt]
  | a :: as, b :: bs => by simp [keyLt, List.cons_lt_cons_iff, keyLt_iff as bs]

theorem keyLt_trans : ∀ {a b c : Bytes}, keyLt a b = true → keyLt b c = true → keyLt a c = true
  | [], _, [], _, h => by cases ‹Bytes› <;> simp [keyLt] at h
  | [], _, _ :: _, _, _ => rfl
  | _ :: _, [], _, h, _ => by simp [keyLt] at h
  | _ :: _, _ :: _, [], _, h => by simp [keyLt] at h
  | a :: as, b :: bs, c :: cs, h1, h2 => by
    simp only [keyLt, Bool.or_eq_true, decide_eq_true_eq, Bool.and_eq_true, beq_iff_eq] at h1 h2 ⊢
    rcases h1 with h1 | ⟨rfl, h1⟩
    · rcases h2 with h2 | ⟨rfl, -⟩
      · exact Or.inl (UInt8.lt_trans h1 h2)
      · exact Or.inl h1
    · rcases h2 with h2 | ⟨rfl, h2⟩
      · exact Or.inl h2
      · exact Or.inr ⟨rfl, keyLt_trans h1 h2⟩

theorem keyLt_tri : ∀ {a b : Bytes}, keyLt a b = false → keyLt b a = false → a = b
  | [], [], _, _ => rfl
  | [], _ :: _, h, _ => by simp [keyLt] at h
  | _ :: _, [], _, h => by simp [keyLt] at h
  | a :: as, b :: bs, h1, h2 => by
    simp only [keyLt, Bool.or_eq_false_iff, decide_eq_false_iff_not] at h1 h2
    have hab : a = b := UInt8.le_antisymm (UInt8.not_lt.1 h2.1) (UInt8.not_lt.1 h1.1)
    subst hab
    rw [keyLt_tri (a := as) (b := bs) (by simpa using h1.2) (by simpa using h2.2)]

theorem keyLt_irrefl : ∀ a : Bytes, keyLt a a = false
  | [] => rfl
  | a :: as => by simp [keyLt, keyLt_irrefl as]

/-- The pairs of a `std::map`: one for each key, in ascending order of the keys. -/
def Spec.IsMap (m : List (Bytes × Val)) : Prop := m.Pairwise fun a b => a.1 < b.1

theorem mapInsert_mem {k : Bytes} {v : Val} : ∀ {m : List (Bytes × Val)} {x : Bytes × Val}, x ∈ mapInsert k v m → x = (k, v) ∨ x ∈ m
  | [], x, h => Or.inl (by simpa [mapInsert] using h)
  | (k', v') :: m, x, h => by
    unfold mapInsert at h
    split at h
    · simpa using h
    · split at h
      · rcases List.mem_cons.1 h with rfl | h
        · exact Or.inr (by simp)
        · rcases mapInsert_mem h with h | h
          · exact Or.inl h
          · exact Or.inr (by simp [h])
      · exact Or.inr h

theorem mapInsert_isMap {k : Bytes} {v : Val} : ∀ {m : List (Bytes × Val)}, IsMap m → IsMap (mapInsert k v m)
  | [], _ => by simp [mapInsert, IsMap]
  | (k', v') :: m, h => by
    obtain ⟨h1, h2⟩ := List.pairwise_cons.1 h
    unfold mapInsert
    split
    · rename_i hlt
      refine List.pairwise_cons.2 ⟨fun x hx => ?_, h⟩
      rcases List.mem_cons.1 hx with rfl | hx
      · exact (keyLt_iff _ _).1 hlt
      · exact (keyLt_iff _ _).1 (keyLt_trans hlt ((keyLt_iff _ _).2 (h1 x hx)))
    · split
      · rename_i hlt
        refine List.pairwise_cons.2 ⟨fun x hx => ?_, mapInsert_isMap h2⟩
        rcases mapInsert_mem hx with rfl | hx
        · exact (keyLt_iff _ _).1 hlt
        · exact h1 x hx
      · exact h

theorem mapInsert_lookup {k : Bytes} {v : Val} (q : Bytes) : ∀ {m : List (Bytes × Val)}, IsMap m →
    (mapInsert k v m).lookup q = (m.lookup q).or (if q = k then some v else none)
  | [], _ => by
    by_cases h : q = k
    · simp [mapInsert, List.lookup, h]
    · have : (q == k) = false := by simpa using h
      simp [mapInsert, List.lookup, h, this]
  | (k', v') :: m, h => by
    obtain ⟨h1, h2⟩ := List.pairwise_cons.1 h
    have hno : keyLt k k' = true → (((k', v') :: m).lookup k) = none := by
      intro hlt
      rw [List.lookup_eq_none_iff]
      rintro ⟨a, b⟩ hx
      have hka : keyLt k a = true := by
        rcases List.mem_cons.1 hx with hx | hx
        · cases hx; exact hlt
        · exact keyLt_trans hlt ((keyLt_iff _ _).2 (h1 _ hx))
      have : k ≠ a := by rintro rfl; rw [keyLt_irrefl] at hka; cases hka
      simpa using this
    unfold mapInsert
    split
    · rename_i hlt
      by_cases hq : q = k
      · subst hq
        rw [hno hlt]
        simp [List.lookup]
      · rw [List.lookup_cons, if_neg hq]
        have : (q == k) = false := by simpa using hq
        simp [this]
    · rename_i hn1
      split
      · rename_i hlt
        by_cases hq : q = k'
        · subst hq
          simp [List.lookup]
        · have : (q == k') = false := by simpa using hq
          simp only [List.lookup_cons, this]
          exact mapInsert_lookup q h2
      · rename_i hn2
        have := keyLt_tri (by simpa using hn1) (by simpa using hn2)
        subst this
        by_cases hq : q = k
        · subst hq; simp [List.lookup]
        · simp [hq]

theorem mapOf_sem_aux (q : Bytes) : ∀ (kvs : List (Bytes × Val)) {m : List (Bytes × Val)}, IsMap m →
    IsMap (kvs.foldl (fun m kv => mapInsert kv.1 kv.2 m) m) ∧
    (kvs.foldl (fun m kv => mapInsert kv.1 kv.2 m) m).lookup q = (m.lookup q).or (kvs.lookup q)
  | [], m, h => ⟨h, by simp⟩
  | (k, v) :: kvs, m, h => by
    obtain ⟨h1, h2⟩ := mapOf_sem_aux q kvs (mapInsert_isMap (k := k) (v := v) h)
    refine ⟨h1, ?_⟩
    rw [List.foldl_cons, h2, mapInsert_lookup q h, Option.or_assoc]
    congr 1
    by_cases hq : q = k
    · subst hq; simp [List.lookup]
    · have : (q == k) = false := by simpa using hq
      simp [hq, List.lookup, this]

theorem isMap_ext : ∀ {a b : List (Bytes × Val)}, IsMap a → IsMap b → (∀ q, a.lookup q = b.lookup q) → a = b
  | [], [], _, _, _ => rfl
  | [], (k, v) :: b, _, _, h => by have := h k; simp [List.lookup] at this
  | (k, v) :: a, [], _, _, h => by have := h k; simp [List.lookup] at this
  | (k, v) :: a, (k', v') :: b, ha, hb, h => by
    obtain ⟨a1, a2⟩ := List.pairwise_cons.1 ha
    obtain ⟨b1, b2⟩ := List.pairwise_cons.1 hb
    have low : ∀ {k : Bytes} {v : Val} {m : List (Bytes × Val)} {q : Bytes}, (∀ x ∈ m, k < x.1) → keyLt q k = true → ((k, v) :: m).lookup q = none := by
      intro k v m q hm hq
      rw [List.lookup_eq_none_iff]
      rintro ⟨x, y⟩ hx
      have hka : keyLt q x = true := by
        rcases List.mem_cons.1 hx with hx | hx
        · cases hx; exact hq
        · exact keyLt_trans hq ((keyLt_iff _ _).2 (hm _ hx))
      have : q ≠ x := by rintro rfl; rw [keyLt_irrefl] at hka; cases hka
      simpa using this
    have hk : k = k' := by
      refine keyLt_tri (Bool.eq_false_iff.2 fun hlt => ?_) (Bool.eq_false_iff.2 fun hlt => ?_)
      · have := h k
        rw [low b1 hlt] at this
        simp [List.lookup] at this
      · have := h k'
        rw [low a1 hlt] at this
        simp [List.lookup] at this
    subst hk
    have hv : v = v' := by have := h k; simpa [List.lookup] using this
    subst hv
    rw [isMap_ext a2 b2]
    intro q
    by_cases hq : q = k
    · subst hq
      have none1 : ∀ {m : List (Bytes × Val)}, (∀ x ∈ m, q < x.1) → m.lookup q = none := by
        intro m hm
        rw [List.lookup_eq_none_iff]
        rintro ⟨x, y⟩ hx
        have hka := (keyLt_iff _ _).2 (hm _ hx)
        have : q ≠ x := by rintro rfl; rw [keyLt_irrefl] at hka; cases hka
        simpa using this
      rw [none1 a1, none1 b1]
    · have := h q
      have hb : (q == k) = false := by simpa using hq
      simpa [List.lookup, hb] using this

/-- **C103**, reading: a `std::map` read from an object has one entry for each name, in order, and the value of a name that stands more than
once is that of its first member; for every value type, any whitespace and any number of members. -/
theorem C103_reads (t : TCfg) (hck : t.cfg.checked = true) (Δ : Env) (henv : EnvOk Δ) (ty : Ty) (w : Bytes) (ms : JMems)
    (kvs : List (Bytes × Val)) (hr : Reads Δ (Usable t) t.exactAll (.map ty) (.obj w ms) (.map kvs))
    (hw : (JVal.obj w ms).WF) (hf : (JVal.obj w ms).Fits) :
    ∃ m, IsMap m ∧ (∀ name, m.lookup name = kvs.lookup name) ∧ ∃ f0, ∀ f, f0 ≤ f → fromJsonMap t Δ f ty (JVal.obj w ms).text = .ok m := by
  refine ⟨mapOf kvs, (mapOf_sem_aux [] kvs (by simp [IsMap])).1, fun q => ?_, ?_⟩
  · have := (mapOf_sem_aux q kvs (m := []) (by simp [IsMap])).2
    simpa [mapOf] using this
  · obtain ⟨f0, hf0⟩ := fromJson_doc hck henv usable_nameOk rfl hr (dok_of hw hf) ⟨rfl, fun h => by cases h⟩
    refine ⟨f0, fun f hfu => ?_⟩
    unfold fromJsonMap
    rw [hf0 f hfu]
    rfl

/-- `{"b":7,"a":7,"b":-12}`, with the name `b` twice. -/
def exMapMs : JMems := .cons [] asc! "b" [] [] (.num asc! "7") [] (.cons [] asc! "a" [] [] (.num asc! "7") [] (.cons [] asc! "b" [] [] exNum [] .nil))

/-- Non-vacuity: the first `b` counts, and `a` stands before it. -/
example : ∃ m, IsMap m ∧ (∀ name, m.lookup name = List.lookup name [(asc! "b", .int 7), (asc! "a", .int 7), (asc! "b", .int (-12))]) ∧
    ∃ f0, ∀ f, f0 ≤ f → fromJsonMap {} exEnv f (.int exI32 false) (JVal.obj [] exMapMs).text = .ok m :=
  C103_reads {} rfl exEnv exEnv_ok (.int exI32 false) [] exMapMs _
    (.map (by simp [exMapMs]) (.cons (.plain (by decide) (by decide) (by decide) .nil) (.int (by decide) (by decide) num7_numeral) (.cons (.plain (by decide) (by decide) (by decide) .nil) (.int (by decide) (by decide) num7_numeral)
      (.cons (.plain (by decide) (by decide) (by decide) .nil) (.int (by decide) (by decide) exNum_numeral) .nil))))
    ⟨Or.inl ws_nil, ws_nil, name1_wf (by decide) (by decide) (by decide), ws_nil, ws_nil, num1_wf (by unfold IsDig; decide) (by decide), ws_nil,
      ws_nil, name1_wf (by decide) (by decide) (by decide), ws_nil, ws_nil, num1_wf (by unfold IsDig; decide) (by decide), ws_nil,
      ws_nil, name1_wf (by decide) (by decide) (by decide), ws_nil, ws_nil, exNum_wf, ws_nil, trivial⟩
    ⟨by decide, by decide⟩

/-- The same, by evaluating the model. -/
example : fromJsonMap {} exEnv 10 (.int exI32 false) (JVal.obj [] exMapMs).text = .ok [(asc! "a", .int 7), (asc! "b", .int 7)] := by decide +kernel

/-- **C103**, round trip: a `std::map` is written and read back as the same map. -/
theorem C103_round_trip (w : WCfg) (t : TCfg) (hck : t.cfg.checked = true) (Δ : Env) (hΔ : Writable Δ)
    (hp : PlainNames t Δ) (hx : w.tc = true → NoExactOrdered t Δ) (ty : Ty) (m : List (Bytes × Val)) (hm : IsMap m)
    (hv : HasTy Δ ValidUtf8 (Seven w.only7bit) (.map ty) (.map m)) (hdep : (Val.map m).depth < 2 ^ 32) :
    ∃ out, toJson w Δ (.map ty) (.map m) = .ok out ∧
      (out.length < 2 ^ 63 → ∃ f0, ∀ f, f0 ≤ f → fromJsonMap t Δ f ty out = .ok m) := by
  obtain ⟨out, h1, h2⟩ := C18_round_trip w t hck Δ hΔ hp hx (.map ty) (.map m) hv hdep rfl
  refine ⟨out, h1, fun hl => ?_⟩
  obtain ⟨f0, hf0⟩ := h2 hl
  refine ⟨f0, fun f hfu => ?_⟩
  unfold fromJsonMap
  rw [hf0 f hfu]
  change Res.ok (mapOf m) = _
  congr 1
  refine isMap_ext (mapOf_sem_aux [] m (by simp [IsMap])).1 hm fun q => ?_
  have := (mapOf_sem_aux q m (m := []) (by simp [IsMap])).2
  simpa [mapOf] using this

/-- Non-vacuity: a map of two classes. -/
example : ∃ out, toJson {} exEnv (.map (.ref 0)) (.map [(asc! "a", exVal), (asc! "b", exVal)]) = .ok out ∧
    (out.length < 2 ^ 63 → ∃ f0, ∀ f, f0 ≤ f → fromJsonMap {} exEnv f (.ref 0) out = .ok [(asc! "a", exVal), (asc! "b", exVal)]) :=
  C103_round_trip _ {} rfl exEnv exEnv_writable (exEnv_plain _) (fun h => by cases h) (.ref 0) _ (by unfold IsMap; decide)
    (by simp only [HasTy, HasPairs]; exact ⟨⟨[0x61], by simp [IsScalar], by decide⟩, exVal_hasTy, ⟨[0x62], by simp [IsScalar], by decide⟩, exVal_hasTy, trivial⟩)
    (by decide)

end Verif
